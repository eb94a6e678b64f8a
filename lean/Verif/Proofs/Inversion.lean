import Verif.Proofs.FirstLast

/-
Inversion of derivations (generated from the tables of `Verif.Model.Grammar`): for every nonterminal,
the shapes of the trees it derives.
-/
namespace Luafmt

def chainsOf (n : NT) : List NT := (chains.filter (fun p => p.1 == n)).map Prod.snd

def prodsOf (n : NT) : List (Tag × List Sym) := (prods.filter (fun p => p.1 == n)).map Prod.snd

theorem derives_shape {n : NT} {c : C} (h : Derives n c) :
    (∃ b, b ∈ chainsOf n ∧ Derives b c) ∨
    (∃ tag ss cs, c = .node tag cs ∧ (tag, ss) ∈ prodsOf n ∧ Matches ss cs) ∨
    (∃ t tag, c = .node tag [.tok t] ∧ leafTag t = some (n, tag)) := by
  cases h with
  | chain hc hd => exact .inl ⟨_, List.mem_map.mpr ⟨_, List.mem_filter.mpr ⟨hc, by simp⟩, rfl⟩, hd⟩
  | prod hp hm => exact .inr (.inl ⟨_, _, _, rfl, List.mem_map.mpr ⟨_, List.mem_filter.mpr ⟨hp, by simp⟩, rfl⟩, hm⟩)
  | leaf hl => exact .inr (.inr ⟨_, _, rfl, hl⟩)

/-- One or more trees of the nonterminal. -/
inductive Many (n : NT) : List C → Prop
  | last {c : C} : Derives n c → Many n [c]
  | cons {c : C} {cs : List C} : Derives n c → Many n cs → Many n (c :: cs)

/-- `(tok n)*`. -/
inductive STail (n : NT) (tok : Token) : List C → Prop
  | nil : STail n tok []
  | cons {c : C} {cs : List C} : Derives n c → STail n tok cs → STail n tok (.tok tok :: c :: cs)

/-- `n (sep n)* sep?`. -/
inductive FItems (n : NT) : List C → Prop
  | last {c : C} : Derives n c → FItems n [c]
  | trail {c : C} {tok : Token} : Derives n c → isFieldSep tok = true → FItems n [c, .tok tok]
  | cons {c : C} {tok : Token} {cs : List C} : Derives n c → isFieldSep tok = true → FItems n cs →
      FItems n (c :: .tok tok :: cs)

theorem m_nil {cs : List C} (h : Matches [] cs) : cs = [] := by cases h; rfl

theorem m_t {tok : Token} {ss : List Sym} {cs : List C} (h : Matches (.t tok :: ss) cs) :
    ∃ r, cs = .tok tok :: r ∧ Matches ss r := by cases h with | t h => exact ⟨_, rfl, h⟩

theorem m_n {n : NT} {ss : List Sym} {cs : List C} (h : Matches (.n n :: ss) cs) :
    ∃ c r, cs = c :: r ∧ Derives n c ∧ Matches ss r := by cases h with | n hd h => exact ⟨_, _, rfl, hd, h⟩

theorem m_list {n : NT} {cs : List C} : Matches [.list n] cs → Many n cs := by
  induction cs with
  | nil => intro h; cases h
  | cons c cs ih =>
    intro h
    cases h with
    | listLast hd h => cases m_nil h; exact .last hd
    | listCons hd h => exact .cons hd (ih h)

theorem m_sep {n : NT} {tok : Token} {cs : List C} : Matches [.sep n tok] cs →
    ∃ c r, cs = c :: r ∧ Derives n c ∧ STail n tok r := by
  induction hl : cs.length using Nat.strongRecOn generalizing cs with
  | _ k ih =>
    intro h
    cases h with
    | sepLast hd h => cases m_nil h; exact ⟨_, _, rfl, hd, .nil⟩
    | sepCons hd h =>
      simp only [List.length_cons] at hl
      obtain ⟨c, r, rfl, h1, h2⟩ := ih _ (by omega) rfl h
      exact ⟨_, _, rfl, hd, .cons h1 h2⟩

theorem m_sepEnd {n : NT} {cs : List C} : Matches [.sepEnd n] cs → FItems n cs := by
  induction hl : cs.length using Nat.strongRecOn generalizing cs with
  | _ k ih =>
    intro h
    cases h with
    | sepEndLast hd h => cases m_nil h; exact .last hd
    | sepEndTrail hd ht h => cases m_nil h; exact .trail hd ht
    | sepEndCons hd ht h =>
      simp only [List.length_cons] at hl
      exact .cons hd ht (ih _ (by omega) rfl h)

theorem inv_block {c : C} (h : Derives .block c) :
    Derives .stats c ∨
    Derives .retStat c ∨
    (∃ x1 x2 , c = .node .statsRetStat [x1, x2] ∧ Derives .stats x1 ∧ Derives .retStat x2) := by
  rcases derives_shape h with ⟨b, hb, hd⟩ | ⟨tag, ss, cs, rfl, hp, hm⟩ | ⟨t, tag, rfl, hl⟩
  · rw [show chainsOf .block = [.stats, .retStat] from by decide +kernel] at hb
    simp only [List.mem_cons, List.not_mem_nil, or_false] at hb
    rcases hb with rfl | rfl
    · exact .inl hd
    · exact .inr (.inl hd)
  · rw [show prodsOf .block = [(.statsRetStat, [.n .stats, .n .retStat])] from by decide +kernel] at hp
    simp only [List.mem_cons, List.not_mem_nil, or_false, Prod.mk.injEq] at hp
    obtain ⟨rfl, rfl⟩ := hp
    · obtain ⟨x1, r1, rfl, d1, hm1⟩ := m_n hm
      obtain ⟨x2, r2, rfl, d2, hm2⟩ := m_n hm1
      cases m_nil hm2
      exact .inr (.inr (⟨x1, x2, rfl, d1, d2⟩))
  · cases t <;> simp [leafTag] at hl

theorem inv_stats {c : C} (h : Derives .stats c) :
    (∃ x1 , c = .node .statementList [x1] ∧ Derives .statStartsMayEndsPar x1) ∨
    (∃ x1 xs , c = .node .statementList (x1 :: xs) ∧ Derives .statStartsMayEndsPar x1 ∧ Many .stat xs) ∨
    (∃ xs , c = .node .statementList xs ∧ Many .stat xs) := by
  rcases derives_shape h with ⟨b, hb, hd⟩ | ⟨tag, ss, cs, rfl, hp, hm⟩ | ⟨t, tag, rfl, hl⟩
  · rw [show chainsOf .stats = [] from by decide +kernel] at hb
    cases hb
  · rw [show prodsOf .stats = [(.statementList, [.n .statStartsMayEndsPar]), (.statementList, [.n .statStartsMayEndsPar, .list .stat]), (.statementList, [.list .stat])] from by decide +kernel] at hp
    simp only [List.mem_cons, List.not_mem_nil, or_false, Prod.mk.injEq] at hp
    rcases hp with ⟨rfl, rfl⟩ | ⟨rfl, rfl⟩ | ⟨rfl, rfl⟩
    · obtain ⟨x1, r1, rfl, d1, hm1⟩ := m_n hm
      cases m_nil hm1
      exact .inl ⟨x1, rfl, d1⟩
    · obtain ⟨x1, r1, rfl, d1, hm1⟩ := m_n hm
      have ds := m_list hm1
      exact .inr (.inl ⟨x1, _, rfl, d1, ds⟩)
    · have ds := m_list hm
      exact .inr (.inr (⟨_, rfl, ds⟩))
  · cases t <;> simp [leafTag] at hl

theorem inv_retStat {c : C} (h : Derives .retStat c) :
    c = .node .retStatNone [.tok .kwReturn] ∨
    (∃ x2 , c = .node .retStatExpr [.tok .kwReturn, x2] ∧ Derives .expList x2) ∨
    c = .node .retStatNoneComma [.tok .kwReturn, .tok .semicolon] ∨
    (∃ x2 , c = .node .retStatExprComma [.tok .kwReturn, x2, .tok .semicolon] ∧ Derives .expList x2) := by
  rcases derives_shape h with ⟨b, hb, hd⟩ | ⟨tag, ss, cs, rfl, hp, hm⟩ | ⟨t, tag, rfl, hl⟩
  · rw [show chainsOf .retStat = [] from by decide +kernel] at hb
    cases hb
  · rw [show prodsOf .retStat = [(.retStatNone, [.t .kwReturn]), (.retStatExpr, [.t .kwReturn, .n .expList]), (.retStatNoneComma, [.t .kwReturn, .t .semicolon]), (.retStatExprComma, [.t .kwReturn, .n .expList, .t .semicolon])] from by decide +kernel] at hp
    simp only [List.mem_cons, List.not_mem_nil, or_false, Prod.mk.injEq] at hp
    rcases hp with ⟨rfl, rfl⟩ | ⟨rfl, rfl⟩ | ⟨rfl, rfl⟩ | ⟨rfl, rfl⟩
    · obtain ⟨r1, rfl, hm1⟩ := m_t hm
      cases m_nil hm1
      exact .inl rfl
    · obtain ⟨r1, rfl, hm1⟩ := m_t hm
      obtain ⟨x2, r2, rfl, d2, hm2⟩ := m_n hm1
      cases m_nil hm2
      exact .inr (.inl ⟨x2, rfl, d2⟩)
    · obtain ⟨r1, rfl, hm1⟩ := m_t hm
      obtain ⟨r2, rfl, hm2⟩ := m_t hm1
      cases m_nil hm2
      exact .inr (.inr (.inl rfl))
    · obtain ⟨r1, rfl, hm1⟩ := m_t hm
      obtain ⟨x2, r2, rfl, d2, hm2⟩ := m_n hm1
      obtain ⟨r3, rfl, hm3⟩ := m_t hm2
      cases m_nil hm3
      exact .inr (.inr (.inr (⟨x2, rfl, d2⟩)))
  · cases t <;> simp [leafTag] at hl

theorem inv_stat {c : C} (h : Derives .stat c) :
    Derives .statNoPar c ∨
    Derives .statMayEndsPar c ∨
    (∃ x1 x2 , c = .node .statementList [x1, x2] ∧ Derives .statNoPar x1 ∧ Derives .statStartsMayEndsPar x2) := by
  rcases derives_shape h with ⟨b, hb, hd⟩ | ⟨tag, ss, cs, rfl, hp, hm⟩ | ⟨t, tag, rfl, hl⟩
  · rw [show chainsOf .stat = [.statNoPar, .statMayEndsPar] from by decide +kernel] at hb
    simp only [List.mem_cons, List.not_mem_nil, or_false] at hb
    rcases hb with rfl | rfl
    · exact .inl hd
    · exact .inr (.inl hd)
  · rw [show prodsOf .stat = [(.statementList, [.n .statNoPar, .n .statStartsMayEndsPar])] from by decide +kernel] at hp
    simp only [List.mem_cons, List.not_mem_nil, or_false, Prod.mk.injEq] at hp
    obtain ⟨rfl, rfl⟩ := hp
    · obtain ⟨x1, r1, rfl, d1, hm1⟩ := m_n hm
      obtain ⟨x2, r2, rfl, d2, hm2⟩ := m_n hm1
      cases m_nil hm2
      exact .inr (.inr (⟨x1, x2, rfl, d1, d2⟩))
  · cases t <;> simp [leafTag] at hl

theorem inv_statNoPar {c : C} (h : Derives .statNoPar c) :
    Derives .label c ∨
    c = .node .semicolon [.tok .semicolon] ∨
    c = .node .break_ [.tok .kwBreak] ∨
    (∃ x2 , c = .node .goTo [.tok .kwGoto, x2] ∧ Derives .name x2) ∨
    c = .node .doEnd [.tok .kwDo, .tok .kwEnd] ∨
    (∃ x2 , c = .node .doBEnd [.tok .kwDo, x2, .tok .kwEnd] ∧ Derives .block x2) ∨
    (∃ x2 , c = .node .whileDo [.tok .kwWhile, x2, .tok .kwDo, .tok .kwEnd] ∧ Derives .opExp x2) ∨
    (∃ x2 x4 , c = .node .whileDoB [.tok .kwWhile, x2, .tok .kwDo, x4, .tok .kwEnd] ∧ Derives .opExp x2 ∧ Derives .block x4) ∨
    (∃ x2 , c = .node .ifThen [.tok .kwIf, x2, .tok .kwThen, .tok .kwEnd] ∧ Derives .opExp x2) ∨
    (∃ x2 x4 , c = .node .ifThenB [.tok .kwIf, x2, .tok .kwThen, x4, .tok .kwEnd] ∧ Derives .opExp x2 ∧ Derives .block x4) ∨
    (∃ x2 , c = .node .ifThenElse [.tok .kwIf, x2, .tok .kwThen, .tok .kwElse, .tok .kwEnd] ∧ Derives .opExp x2) ∨
    (∃ x2 x4 , c = .node .ifThenBElse [.tok .kwIf, x2, .tok .kwThen, x4, .tok .kwElse, .tok .kwEnd] ∧ Derives .opExp x2 ∧ Derives .block x4) ∨
    (∃ x2 x5 , c = .node .ifThenElseB [.tok .kwIf, x2, .tok .kwThen, .tok .kwElse, x5, .tok .kwEnd] ∧ Derives .opExp x2 ∧ Derives .block x5) ∨
    (∃ x2 x4 x6 , c = .node .ifThenBElseB [.tok .kwIf, x2, .tok .kwThen, x4, .tok .kwElse, x6, .tok .kwEnd] ∧ Derives .opExp x2 ∧ Derives .block x4 ∧ Derives .block x6) ∨
    (∃ x2 x4 , c = .node .ifThenElseIf [.tok .kwIf, x2, .tok .kwThen, x4, .tok .kwEnd] ∧ Derives .opExp x2 ∧ Derives .elseIfThenVec x4) ∨
    (∃ x2 x4 x5 , c = .node .ifThenBElseIf [.tok .kwIf, x2, .tok .kwThen, x4, x5, .tok .kwEnd] ∧ Derives .opExp x2 ∧ Derives .block x4 ∧ Derives .elseIfThenVec x5) ∨
    (∃ x2 x4 , c = .node .ifThenElseIfElse [.tok .kwIf, x2, .tok .kwThen, x4, .tok .kwElse, .tok .kwEnd] ∧ Derives .opExp x2 ∧ Derives .elseIfThenVec x4) ∨
    (∃ x2 x4 x5 , c = .node .ifThenBElseIfElse [.tok .kwIf, x2, .tok .kwThen, x4, x5, .tok .kwElse, .tok .kwEnd] ∧ Derives .opExp x2 ∧ Derives .block x4 ∧ Derives .elseIfThenVec x5) ∨
    (∃ x2 x4 x6 , c = .node .ifThenElseIfElseB [.tok .kwIf, x2, .tok .kwThen, x4, .tok .kwElse, x6, .tok .kwEnd] ∧ Derives .opExp x2 ∧ Derives .elseIfThenVec x4 ∧ Derives .block x6) ∨
    (∃ x2 x4 x5 x7 , c = .node .ifThenBElseIfElseB [.tok .kwIf, x2, .tok .kwThen, x4, x5, .tok .kwElse, x7, .tok .kwEnd] ∧ Derives .opExp x2 ∧ Derives .block x4 ∧ Derives .elseIfThenVec x5 ∧ Derives .block x7) ∨
    (∃ x2 x4 x6 , c = .node .forInt [.tok .kwFor, x2, .tok .equalsSign, x4, .tok .comma, x6, .tok .kwDo, .tok .kwEnd] ∧ Derives .name x2 ∧ Derives .opExp x4 ∧ Derives .opExp x6) ∨
    (∃ x2 x4 x6 x8 , c = .node .forIntB [.tok .kwFor, x2, .tok .equalsSign, x4, .tok .comma, x6, .tok .kwDo, x8, .tok .kwEnd] ∧ Derives .name x2 ∧ Derives .opExp x4 ∧ Derives .opExp x6 ∧ Derives .block x8) ∨
    (∃ x2 x4 x6 x8 , c = .node .forIntStep [.tok .kwFor, x2, .tok .equalsSign, x4, .tok .comma, x6, .tok .comma, x8, .tok .kwDo, .tok .kwEnd] ∧ Derives .name x2 ∧ Derives .opExp x4 ∧ Derives .opExp x6 ∧ Derives .opExp x8) ∨
    (∃ x2 x4 x6 x8 x10 , c = .node .forIntStepB [.tok .kwFor, x2, .tok .equalsSign, x4, .tok .comma, x6, .tok .comma, x8, .tok .kwDo, x10, .tok .kwEnd] ∧ Derives .name x2 ∧ Derives .opExp x4 ∧ Derives .opExp x6 ∧ Derives .opExp x8 ∧ Derives .block x10) ∨
    (∃ x2 x4 , c = .node .forRange [.tok .kwFor, x2, .tok .kwIn, x4, .tok .kwDo, .tok .kwEnd] ∧ Derives .nameList x2 ∧ Derives .expList x4) ∨
    (∃ x2 x4 x6 , c = .node .forRangeB [.tok .kwFor, x2, .tok .kwIn, x4, .tok .kwDo, x6, .tok .kwEnd] ∧ Derives .nameList x2 ∧ Derives .expList x4 ∧ Derives .block x6) ∨
    (∃ x2 x3 , c = .node .funcDecl [.tok .kwFunction, x2, x3] ∧ Derives .funcName x2 ∧ Derives .funcBody x3) ∨
    (∃ x3 x4 , c = .node .localFuncDecl [.tok .kwLocal, .tok .kwFunction, x3, x4] ∧ Derives .name x3 ∧ Derives .funcBody x4) ∨
    (∃ x2 , c = .node .localNames [.tok .kwLocal, x2] ∧ Derives .nameList x2) := by
  rcases derives_shape h with ⟨b, hb, hd⟩ | ⟨tag, ss, cs, rfl, hp, hm⟩ | ⟨t, tag, rfl, hl⟩
  · rw [show chainsOf .statNoPar = [.label] from by decide +kernel] at hb
    simp only [List.mem_cons, List.not_mem_nil, or_false] at hb
    subst hb
    · exact .inl hd
  · rw [show prodsOf .statNoPar = [(.semicolon, [.t .semicolon]), (.break_, [.t .kwBreak]), (.goTo, [.t .kwGoto, .n .name]), (.doEnd, [.t .kwDo, .t .kwEnd]), (.doBEnd, [.t .kwDo, .n .block, .t .kwEnd]), (.whileDo, [.t .kwWhile, .n .opExp, .t .kwDo, .t .kwEnd]), (.whileDoB, [.t .kwWhile, .n .opExp, .t .kwDo, .n .block, .t .kwEnd]), (.ifThen, [.t .kwIf, .n .opExp, .t .kwThen, .t .kwEnd]), (.ifThenB, [.t .kwIf, .n .opExp, .t .kwThen, .n .block, .t .kwEnd]), (.ifThenElse, [.t .kwIf, .n .opExp, .t .kwThen, .t .kwElse, .t .kwEnd]), (.ifThenBElse, [.t .kwIf, .n .opExp, .t .kwThen, .n .block, .t .kwElse, .t .kwEnd]), (.ifThenElseB, [.t .kwIf, .n .opExp, .t .kwThen, .t .kwElse, .n .block, .t .kwEnd]), (.ifThenBElseB, [.t .kwIf, .n .opExp, .t .kwThen, .n .block, .t .kwElse, .n .block, .t .kwEnd]), (.ifThenElseIf, [.t .kwIf, .n .opExp, .t .kwThen, .n .elseIfThenVec, .t .kwEnd]), (.ifThenBElseIf, [.t .kwIf, .n .opExp, .t .kwThen, .n .block, .n .elseIfThenVec, .t .kwEnd]), (.ifThenElseIfElse, [.t .kwIf, .n .opExp, .t .kwThen, .n .elseIfThenVec, .t .kwElse, .t .kwEnd]), (.ifThenBElseIfElse, [.t .kwIf, .n .opExp, .t .kwThen, .n .block, .n .elseIfThenVec, .t .kwElse, .t .kwEnd]), (.ifThenElseIfElseB, [.t .kwIf, .n .opExp, .t .kwThen, .n .elseIfThenVec, .t .kwElse, .n .block, .t .kwEnd]), (.ifThenBElseIfElseB, [.t .kwIf, .n .opExp, .t .kwThen, .n .block, .n .elseIfThenVec, .t .kwElse, .n .block, .t .kwEnd]), (.forInt, [.t .kwFor, .n .name, .t .equalsSign, .n .opExp, .t .comma, .n .opExp, .t .kwDo, .t .kwEnd]), (.forIntB, [.t .kwFor, .n .name, .t .equalsSign, .n .opExp, .t .comma, .n .opExp, .t .kwDo, .n .block, .t .kwEnd]), (.forIntStep, [.t .kwFor, .n .name, .t .equalsSign, .n .opExp, .t .comma, .n .opExp, .t .comma, .n .opExp, .t .kwDo, .t .kwEnd]), (.forIntStepB, [.t .kwFor, .n .name, .t .equalsSign, .n .opExp, .t .comma, .n .opExp, .t .comma, .n .opExp, .t .kwDo, .n .block, .t .kwEnd]), (.forRange, [.t .kwFor, .n .nameList, .t .kwIn, .n .expList, .t .kwDo, .t .kwEnd]), (.forRangeB, [.t .kwFor, .n .nameList, .t .kwIn, .n .expList, .t .kwDo, .n .block, .t .kwEnd]), (.funcDecl, [.t .kwFunction, .n .funcName, .n .funcBody]), (.localFuncDecl, [.t .kwLocal, .t .kwFunction, .n .name, .n .funcBody]), (.localNames, [.t .kwLocal, .n .nameList])] from by decide +kernel] at hp
    simp only [List.mem_cons, List.not_mem_nil, or_false, Prod.mk.injEq] at hp
    rcases hp with ⟨rfl, rfl⟩ | ⟨rfl, rfl⟩ | ⟨rfl, rfl⟩ | ⟨rfl, rfl⟩ | ⟨rfl, rfl⟩ | ⟨rfl, rfl⟩ | ⟨rfl, rfl⟩ | ⟨rfl, rfl⟩ | ⟨rfl, rfl⟩ | ⟨rfl, rfl⟩ | ⟨rfl, rfl⟩ | ⟨rfl, rfl⟩ | ⟨rfl, rfl⟩ | ⟨rfl, rfl⟩ | ⟨rfl, rfl⟩ | ⟨rfl, rfl⟩ | ⟨rfl, rfl⟩ | ⟨rfl, rfl⟩ | ⟨rfl, rfl⟩ | ⟨rfl, rfl⟩ | ⟨rfl, rfl⟩ | ⟨rfl, rfl⟩ | ⟨rfl, rfl⟩ | ⟨rfl, rfl⟩ | ⟨rfl, rfl⟩ | ⟨rfl, rfl⟩ | ⟨rfl, rfl⟩ | ⟨rfl, rfl⟩
    · obtain ⟨r1, rfl, hm1⟩ := m_t hm
      cases m_nil hm1
      exact .inr (.inl rfl)
    · obtain ⟨r1, rfl, hm1⟩ := m_t hm
      cases m_nil hm1
      exact .inr (.inr (.inl rfl))
    · obtain ⟨r1, rfl, hm1⟩ := m_t hm
      obtain ⟨x2, r2, rfl, d2, hm2⟩ := m_n hm1
      cases m_nil hm2
      exact .inr (.inr (.inr (.inl ⟨x2, rfl, d2⟩)))
    · obtain ⟨r1, rfl, hm1⟩ := m_t hm
      obtain ⟨r2, rfl, hm2⟩ := m_t hm1
      cases m_nil hm2
      exact .inr (.inr (.inr (.inr (.inl rfl))))
    · obtain ⟨r1, rfl, hm1⟩ := m_t hm
      obtain ⟨x2, r2, rfl, d2, hm2⟩ := m_n hm1
      obtain ⟨r3, rfl, hm3⟩ := m_t hm2
      cases m_nil hm3
      exact .inr (.inr (.inr (.inr (.inr (.inl ⟨x2, rfl, d2⟩)))))
    · obtain ⟨r1, rfl, hm1⟩ := m_t hm
      obtain ⟨x2, r2, rfl, d2, hm2⟩ := m_n hm1
      obtain ⟨r3, rfl, hm3⟩ := m_t hm2
      obtain ⟨r4, rfl, hm4⟩ := m_t hm3
      cases m_nil hm4
      exact .inr (.inr (.inr (.inr (.inr (.inr (.inl ⟨x2, rfl, d2⟩))))))
    · obtain ⟨r1, rfl, hm1⟩ := m_t hm
      obtain ⟨x2, r2, rfl, d2, hm2⟩ := m_n hm1
      obtain ⟨r3, rfl, hm3⟩ := m_t hm2
      obtain ⟨x4, r4, rfl, d4, hm4⟩ := m_n hm3
      obtain ⟨r5, rfl, hm5⟩ := m_t hm4
      cases m_nil hm5
      exact .inr (.inr (.inr (.inr (.inr (.inr (.inr (.inl ⟨x2, x4, rfl, d2, d4⟩)))))))
    · obtain ⟨r1, rfl, hm1⟩ := m_t hm
      obtain ⟨x2, r2, rfl, d2, hm2⟩ := m_n hm1
      obtain ⟨r3, rfl, hm3⟩ := m_t hm2
      obtain ⟨r4, rfl, hm4⟩ := m_t hm3
      cases m_nil hm4
      exact .inr (.inr (.inr (.inr (.inr (.inr (.inr (.inr (.inl ⟨x2, rfl, d2⟩))))))))
    · obtain ⟨r1, rfl, hm1⟩ := m_t hm
      obtain ⟨x2, r2, rfl, d2, hm2⟩ := m_n hm1
      obtain ⟨r3, rfl, hm3⟩ := m_t hm2
      obtain ⟨x4, r4, rfl, d4, hm4⟩ := m_n hm3
      obtain ⟨r5, rfl, hm5⟩ := m_t hm4
      cases m_nil hm5
      exact .inr (.inr (.inr (.inr (.inr (.inr (.inr (.inr (.inr (.inl ⟨x2, x4, rfl, d2, d4⟩)))))))))
    · obtain ⟨r1, rfl, hm1⟩ := m_t hm
      obtain ⟨x2, r2, rfl, d2, hm2⟩ := m_n hm1
      obtain ⟨r3, rfl, hm3⟩ := m_t hm2
      obtain ⟨r4, rfl, hm4⟩ := m_t hm3
      obtain ⟨r5, rfl, hm5⟩ := m_t hm4
      cases m_nil hm5
      exact .inr (.inr (.inr (.inr (.inr (.inr (.inr (.inr (.inr (.inr (.inl ⟨x2, rfl, d2⟩))))))))))
    · obtain ⟨r1, rfl, hm1⟩ := m_t hm
      obtain ⟨x2, r2, rfl, d2, hm2⟩ := m_n hm1
      obtain ⟨r3, rfl, hm3⟩ := m_t hm2
      obtain ⟨x4, r4, rfl, d4, hm4⟩ := m_n hm3
      obtain ⟨r5, rfl, hm5⟩ := m_t hm4
      obtain ⟨r6, rfl, hm6⟩ := m_t hm5
      cases m_nil hm6
      exact .inr (.inr (.inr (.inr (.inr (.inr (.inr (.inr (.inr (.inr (.inr (.inl ⟨x2, x4, rfl, d2, d4⟩)))))))))))
    · obtain ⟨r1, rfl, hm1⟩ := m_t hm
      obtain ⟨x2, r2, rfl, d2, hm2⟩ := m_n hm1
      obtain ⟨r3, rfl, hm3⟩ := m_t hm2
      obtain ⟨r4, rfl, hm4⟩ := m_t hm3
      obtain ⟨x5, r5, rfl, d5, hm5⟩ := m_n hm4
      obtain ⟨r6, rfl, hm6⟩ := m_t hm5
      cases m_nil hm6
      exact .inr (.inr (.inr (.inr (.inr (.inr (.inr (.inr (.inr (.inr (.inr (.inr (.inl ⟨x2, x5, rfl, d2, d5⟩))))))))))))
    · obtain ⟨r1, rfl, hm1⟩ := m_t hm
      obtain ⟨x2, r2, rfl, d2, hm2⟩ := m_n hm1
      obtain ⟨r3, rfl, hm3⟩ := m_t hm2
      obtain ⟨x4, r4, rfl, d4, hm4⟩ := m_n hm3
      obtain ⟨r5, rfl, hm5⟩ := m_t hm4
      obtain ⟨x6, r6, rfl, d6, hm6⟩ := m_n hm5
      obtain ⟨r7, rfl, hm7⟩ := m_t hm6
      cases m_nil hm7
      exact .inr (.inr (.inr (.inr (.inr (.inr (.inr (.inr (.inr (.inr (.inr (.inr (.inr (.inl ⟨x2, x4, x6, rfl, d2, d4, d6⟩)))))))))))))
    · obtain ⟨r1, rfl, hm1⟩ := m_t hm
      obtain ⟨x2, r2, rfl, d2, hm2⟩ := m_n hm1
      obtain ⟨r3, rfl, hm3⟩ := m_t hm2
      obtain ⟨x4, r4, rfl, d4, hm4⟩ := m_n hm3
      obtain ⟨r5, rfl, hm5⟩ := m_t hm4
      cases m_nil hm5
      exact .inr (.inr (.inr (.inr (.inr (.inr (.inr (.inr (.inr (.inr (.inr (.inr (.inr (.inr (.inl ⟨x2, x4, rfl, d2, d4⟩))))))))))))))
    · obtain ⟨r1, rfl, hm1⟩ := m_t hm
      obtain ⟨x2, r2, rfl, d2, hm2⟩ := m_n hm1
      obtain ⟨r3, rfl, hm3⟩ := m_t hm2
      obtain ⟨x4, r4, rfl, d4, hm4⟩ := m_n hm3
      obtain ⟨x5, r5, rfl, d5, hm5⟩ := m_n hm4
      obtain ⟨r6, rfl, hm6⟩ := m_t hm5
      cases m_nil hm6
      exact .inr (.inr (.inr (.inr (.inr (.inr (.inr (.inr (.inr (.inr (.inr (.inr (.inr (.inr (.inr (.inl ⟨x2, x4, x5, rfl, d2, d4, d5⟩)))))))))))))))
    · obtain ⟨r1, rfl, hm1⟩ := m_t hm
      obtain ⟨x2, r2, rfl, d2, hm2⟩ := m_n hm1
      obtain ⟨r3, rfl, hm3⟩ := m_t hm2
      obtain ⟨x4, r4, rfl, d4, hm4⟩ := m_n hm3
      obtain ⟨r5, rfl, hm5⟩ := m_t hm4
      obtain ⟨r6, rfl, hm6⟩ := m_t hm5
      cases m_nil hm6
      exact .inr (.inr (.inr (.inr (.inr (.inr (.inr (.inr (.inr (.inr (.inr (.inr (.inr (.inr (.inr (.inr (.inl ⟨x2, x4, rfl, d2, d4⟩))))))))))))))))
    · obtain ⟨r1, rfl, hm1⟩ := m_t hm
      obtain ⟨x2, r2, rfl, d2, hm2⟩ := m_n hm1
      obtain ⟨r3, rfl, hm3⟩ := m_t hm2
      obtain ⟨x4, r4, rfl, d4, hm4⟩ := m_n hm3
      obtain ⟨x5, r5, rfl, d5, hm5⟩ := m_n hm4
      obtain ⟨r6, rfl, hm6⟩ := m_t hm5
      obtain ⟨r7, rfl, hm7⟩ := m_t hm6
      cases m_nil hm7
      exact .inr (.inr (.inr (.inr (.inr (.inr (.inr (.inr (.inr (.inr (.inr (.inr (.inr (.inr (.inr (.inr (.inr (.inl ⟨x2, x4, x5, rfl, d2, d4, d5⟩)))))))))))))))))
    · obtain ⟨r1, rfl, hm1⟩ := m_t hm
      obtain ⟨x2, r2, rfl, d2, hm2⟩ := m_n hm1
      obtain ⟨r3, rfl, hm3⟩ := m_t hm2
      obtain ⟨x4, r4, rfl, d4, hm4⟩ := m_n hm3
      obtain ⟨r5, rfl, hm5⟩ := m_t hm4
      obtain ⟨x6, r6, rfl, d6, hm6⟩ := m_n hm5
      obtain ⟨r7, rfl, hm7⟩ := m_t hm6
      cases m_nil hm7
      exact .inr (.inr (.inr (.inr (.inr (.inr (.inr (.inr (.inr (.inr (.inr (.inr (.inr (.inr (.inr (.inr (.inr (.inr (.inl ⟨x2, x4, x6, rfl, d2, d4, d6⟩))))))))))))))))))
    · obtain ⟨r1, rfl, hm1⟩ := m_t hm
      obtain ⟨x2, r2, rfl, d2, hm2⟩ := m_n hm1
      obtain ⟨r3, rfl, hm3⟩ := m_t hm2
      obtain ⟨x4, r4, rfl, d4, hm4⟩ := m_n hm3
      obtain ⟨x5, r5, rfl, d5, hm5⟩ := m_n hm4
      obtain ⟨r6, rfl, hm6⟩ := m_t hm5
      obtain ⟨x7, r7, rfl, d7, hm7⟩ := m_n hm6
      obtain ⟨r8, rfl, hm8⟩ := m_t hm7
      cases m_nil hm8
      exact .inr (.inr (.inr (.inr (.inr (.inr (.inr (.inr (.inr (.inr (.inr (.inr (.inr (.inr (.inr (.inr (.inr (.inr (.inr (.inl ⟨x2, x4, x5, x7, rfl, d2, d4, d5, d7⟩)))))))))))))))))))
    · obtain ⟨r1, rfl, hm1⟩ := m_t hm
      obtain ⟨x2, r2, rfl, d2, hm2⟩ := m_n hm1
      obtain ⟨r3, rfl, hm3⟩ := m_t hm2
      obtain ⟨x4, r4, rfl, d4, hm4⟩ := m_n hm3
      obtain ⟨r5, rfl, hm5⟩ := m_t hm4
      obtain ⟨x6, r6, rfl, d6, hm6⟩ := m_n hm5
      obtain ⟨r7, rfl, hm7⟩ := m_t hm6
      obtain ⟨r8, rfl, hm8⟩ := m_t hm7
      cases m_nil hm8
      exact .inr (.inr (.inr (.inr (.inr (.inr (.inr (.inr (.inr (.inr (.inr (.inr (.inr (.inr (.inr (.inr (.inr (.inr (.inr (.inr (.inl ⟨x2, x4, x6, rfl, d2, d4, d6⟩))))))))))))))))))))
    · obtain ⟨r1, rfl, hm1⟩ := m_t hm
      obtain ⟨x2, r2, rfl, d2, hm2⟩ := m_n hm1
      obtain ⟨r3, rfl, hm3⟩ := m_t hm2
      obtain ⟨x4, r4, rfl, d4, hm4⟩ := m_n hm3
      obtain ⟨r5, rfl, hm5⟩ := m_t hm4
      obtain ⟨x6, r6, rfl, d6, hm6⟩ := m_n hm5
      obtain ⟨r7, rfl, hm7⟩ := m_t hm6
      obtain ⟨x8, r8, rfl, d8, hm8⟩ := m_n hm7
      obtain ⟨r9, rfl, hm9⟩ := m_t hm8
      cases m_nil hm9
      exact .inr (.inr (.inr (.inr (.inr (.inr (.inr (.inr (.inr (.inr (.inr (.inr (.inr (.inr (.inr (.inr (.inr (.inr (.inr (.inr (.inr (.inl ⟨x2, x4, x6, x8, rfl, d2, d4, d6, d8⟩)))))))))))))))))))))
    · obtain ⟨r1, rfl, hm1⟩ := m_t hm
      obtain ⟨x2, r2, rfl, d2, hm2⟩ := m_n hm1
      obtain ⟨r3, rfl, hm3⟩ := m_t hm2
      obtain ⟨x4, r4, rfl, d4, hm4⟩ := m_n hm3
      obtain ⟨r5, rfl, hm5⟩ := m_t hm4
      obtain ⟨x6, r6, rfl, d6, hm6⟩ := m_n hm5
      obtain ⟨r7, rfl, hm7⟩ := m_t hm6
      obtain ⟨x8, r8, rfl, d8, hm8⟩ := m_n hm7
      obtain ⟨r9, rfl, hm9⟩ := m_t hm8
      obtain ⟨r10, rfl, hm10⟩ := m_t hm9
      cases m_nil hm10
      exact .inr (.inr (.inr (.inr (.inr (.inr (.inr (.inr (.inr (.inr (.inr (.inr (.inr (.inr (.inr (.inr (.inr (.inr (.inr (.inr (.inr (.inr (.inl ⟨x2, x4, x6, x8, rfl, d2, d4, d6, d8⟩))))))))))))))))))))))
    · obtain ⟨r1, rfl, hm1⟩ := m_t hm
      obtain ⟨x2, r2, rfl, d2, hm2⟩ := m_n hm1
      obtain ⟨r3, rfl, hm3⟩ := m_t hm2
      obtain ⟨x4, r4, rfl, d4, hm4⟩ := m_n hm3
      obtain ⟨r5, rfl, hm5⟩ := m_t hm4
      obtain ⟨x6, r6, rfl, d6, hm6⟩ := m_n hm5
      obtain ⟨r7, rfl, hm7⟩ := m_t hm6
      obtain ⟨x8, r8, rfl, d8, hm8⟩ := m_n hm7
      obtain ⟨r9, rfl, hm9⟩ := m_t hm8
      obtain ⟨x10, r10, rfl, d10, hm10⟩ := m_n hm9
      obtain ⟨r11, rfl, hm11⟩ := m_t hm10
      cases m_nil hm11
      exact .inr (.inr (.inr (.inr (.inr (.inr (.inr (.inr (.inr (.inr (.inr (.inr (.inr (.inr (.inr (.inr (.inr (.inr (.inr (.inr (.inr (.inr (.inr (.inl ⟨x2, x4, x6, x8, x10, rfl, d2, d4, d6, d8, d10⟩)))))))))))))))))))))))
    · obtain ⟨r1, rfl, hm1⟩ := m_t hm
      obtain ⟨x2, r2, rfl, d2, hm2⟩ := m_n hm1
      obtain ⟨r3, rfl, hm3⟩ := m_t hm2
      obtain ⟨x4, r4, rfl, d4, hm4⟩ := m_n hm3
      obtain ⟨r5, rfl, hm5⟩ := m_t hm4
      obtain ⟨r6, rfl, hm6⟩ := m_t hm5
      cases m_nil hm6
      exact .inr (.inr (.inr (.inr (.inr (.inr (.inr (.inr (.inr (.inr (.inr (.inr (.inr (.inr (.inr (.inr (.inr (.inr (.inr (.inr (.inr (.inr (.inr (.inr (.inl ⟨x2, x4, rfl, d2, d4⟩))))))))))))))))))))))))
    · obtain ⟨r1, rfl, hm1⟩ := m_t hm
      obtain ⟨x2, r2, rfl, d2, hm2⟩ := m_n hm1
      obtain ⟨r3, rfl, hm3⟩ := m_t hm2
      obtain ⟨x4, r4, rfl, d4, hm4⟩ := m_n hm3
      obtain ⟨r5, rfl, hm5⟩ := m_t hm4
      obtain ⟨x6, r6, rfl, d6, hm6⟩ := m_n hm5
      obtain ⟨r7, rfl, hm7⟩ := m_t hm6
      cases m_nil hm7
      exact .inr (.inr (.inr (.inr (.inr (.inr (.inr (.inr (.inr (.inr (.inr (.inr (.inr (.inr (.inr (.inr (.inr (.inr (.inr (.inr (.inr (.inr (.inr (.inr (.inr (.inl ⟨x2, x4, x6, rfl, d2, d4, d6⟩)))))))))))))))))))))))))
    · obtain ⟨r1, rfl, hm1⟩ := m_t hm
      obtain ⟨x2, r2, rfl, d2, hm2⟩ := m_n hm1
      obtain ⟨x3, r3, rfl, d3, hm3⟩ := m_n hm2
      cases m_nil hm3
      exact .inr (.inr (.inr (.inr (.inr (.inr (.inr (.inr (.inr (.inr (.inr (.inr (.inr (.inr (.inr (.inr (.inr (.inr (.inr (.inr (.inr (.inr (.inr (.inr (.inr (.inr (.inl ⟨x2, x3, rfl, d2, d3⟩))))))))))))))))))))))))))
    · obtain ⟨r1, rfl, hm1⟩ := m_t hm
      obtain ⟨r2, rfl, hm2⟩ := m_t hm1
      obtain ⟨x3, r3, rfl, d3, hm3⟩ := m_n hm2
      obtain ⟨x4, r4, rfl, d4, hm4⟩ := m_n hm3
      cases m_nil hm4
      exact .inr (.inr (.inr (.inr (.inr (.inr (.inr (.inr (.inr (.inr (.inr (.inr (.inr (.inr (.inr (.inr (.inr (.inr (.inr (.inr (.inr (.inr (.inr (.inr (.inr (.inr (.inr (.inl ⟨x3, x4, rfl, d3, d4⟩)))))))))))))))))))))))))))
    · obtain ⟨r1, rfl, hm1⟩ := m_t hm
      obtain ⟨x2, r2, rfl, d2, hm2⟩ := m_n hm1
      cases m_nil hm2
      exact .inr (.inr (.inr (.inr (.inr (.inr (.inr (.inr (.inr (.inr (.inr (.inr (.inr (.inr (.inr (.inr (.inr (.inr (.inr (.inr (.inr (.inr (.inr (.inr (.inr (.inr (.inr (.inr (⟨x2, rfl, d2⟩))))))))))))))))))))))))))))
  · cases t <;> simp [leafTag] at hl

theorem inv_statMayEndsPar {c : C} (h : Derives .statMayEndsPar c) :
    Derives .functionCallNoStartsMayEndsPar c ∨
    (∃ x1 x3 , c = .node .varsExprs [x1, .tok .equalsSign, x3] ∧ Derives .varListNoStartPar x1 ∧ Derives .expList x3) ∨
    (∃ x2 x4 , c = .node .repeatBUntil [.tok .kwRepeat, x2, .tok .kwUntil, x4] ∧ Derives .block x2 ∧ Derives .opExp x4) ∨
    (∃ x3 , c = .node .repeatUntil [.tok .kwRepeat, .tok .kwUntil, x3] ∧ Derives .opExp x3) ∨
    (∃ x2 x4 , c = .node .localNamesExprs [.tok .kwLocal, x2, .tok .equalsSign, x4] ∧ Derives .nameList x2 ∧ Derives .expList x4) := by
  rcases derives_shape h with ⟨b, hb, hd⟩ | ⟨tag, ss, cs, rfl, hp, hm⟩ | ⟨t, tag, rfl, hl⟩
  · rw [show chainsOf .statMayEndsPar = [.functionCallNoStartsMayEndsPar] from by decide +kernel] at hb
    simp only [List.mem_cons, List.not_mem_nil, or_false] at hb
    subst hb
    · exact .inl hd
  · rw [show prodsOf .statMayEndsPar = [(.varsExprs, [.n .varListNoStartPar, .t .equalsSign, .n .expList]), (.repeatBUntil, [.t .kwRepeat, .n .block, .t .kwUntil, .n .opExp]), (.repeatUntil, [.t .kwRepeat, .t .kwUntil, .n .opExp]), (.localNamesExprs, [.t .kwLocal, .n .nameList, .t .equalsSign, .n .expList])] from by decide +kernel] at hp
    simp only [List.mem_cons, List.not_mem_nil, or_false, Prod.mk.injEq] at hp
    rcases hp with ⟨rfl, rfl⟩ | ⟨rfl, rfl⟩ | ⟨rfl, rfl⟩ | ⟨rfl, rfl⟩
    · obtain ⟨x1, r1, rfl, d1, hm1⟩ := m_n hm
      obtain ⟨r2, rfl, hm2⟩ := m_t hm1
      obtain ⟨x3, r3, rfl, d3, hm3⟩ := m_n hm2
      cases m_nil hm3
      exact .inr (.inl ⟨x1, x3, rfl, d1, d3⟩)
    · obtain ⟨r1, rfl, hm1⟩ := m_t hm
      obtain ⟨x2, r2, rfl, d2, hm2⟩ := m_n hm1
      obtain ⟨r3, rfl, hm3⟩ := m_t hm2
      obtain ⟨x4, r4, rfl, d4, hm4⟩ := m_n hm3
      cases m_nil hm4
      exact .inr (.inr (.inl ⟨x2, x4, rfl, d2, d4⟩))
    · obtain ⟨r1, rfl, hm1⟩ := m_t hm
      obtain ⟨r2, rfl, hm2⟩ := m_t hm1
      obtain ⟨x3, r3, rfl, d3, hm3⟩ := m_n hm2
      cases m_nil hm3
      exact .inr (.inr (.inr (.inl ⟨x3, rfl, d3⟩)))
    · obtain ⟨r1, rfl, hm1⟩ := m_t hm
      obtain ⟨x2, r2, rfl, d2, hm2⟩ := m_n hm1
      obtain ⟨r3, rfl, hm3⟩ := m_t hm2
      obtain ⟨x4, r4, rfl, d4, hm4⟩ := m_n hm3
      cases m_nil hm4
      exact .inr (.inr (.inr (.inr (⟨x2, x4, rfl, d2, d4⟩))))
  · cases t <;> simp [leafTag] at hl

theorem inv_statStartsMayEndsPar {c : C} (h : Derives .statStartsMayEndsPar c) :
    Derives .functionCallStartsMayEndsPar c ∨
    (∃ x1 x3 , c = .node .varsExprs [x1, .tok .equalsSign, x3] ∧ Derives .varListStartsPar x1 ∧ Derives .expList x3) := by
  rcases derives_shape h with ⟨b, hb, hd⟩ | ⟨tag, ss, cs, rfl, hp, hm⟩ | ⟨t, tag, rfl, hl⟩
  · rw [show chainsOf .statStartsMayEndsPar = [.functionCallStartsMayEndsPar] from by decide +kernel] at hb
    simp only [List.mem_cons, List.not_mem_nil, or_false] at hb
    subst hb
    · exact .inl hd
  · rw [show prodsOf .statStartsMayEndsPar = [(.varsExprs, [.n .varListStartsPar, .t .equalsSign, .n .expList])] from by decide +kernel] at hp
    simp only [List.mem_cons, List.not_mem_nil, or_false, Prod.mk.injEq] at hp
    obtain ⟨rfl, rfl⟩ := hp
    · obtain ⟨x1, r1, rfl, d1, hm1⟩ := m_n hm
      obtain ⟨r2, rfl, hm2⟩ := m_t hm1
      obtain ⟨x3, r3, rfl, d3, hm3⟩ := m_n hm2
      cases m_nil hm3
      exact .inr (⟨x1, x3, rfl, d1, d3⟩)
  · cases t <;> simp [leafTag] at hl

theorem inv_functionCallStartsMayEndsPar {c : C} (h : Derives .functionCallStartsMayEndsPar c) :
    (∃ x2 , c = .node .roundBrackets [.tok .openRound, x2, .tok .closeRound] ∧ Derives .opExp x2) ∨
    (∃ x2 x4 , c = .node .varRoundSuffix [.tok .openRound, x2, .tok .closeRound, x4] ∧ Derives .opExp x2 ∧ Derives .varSuffixList x4) := by
  rcases derives_shape h with ⟨b, hb, hd⟩ | ⟨tag, ss, cs, rfl, hp, hm⟩ | ⟨t, tag, rfl, hl⟩
  · rw [show chainsOf .functionCallStartsMayEndsPar = [] from by decide +kernel] at hb
    cases hb
  · rw [show prodsOf .functionCallStartsMayEndsPar = [(.roundBrackets, [.t .openRound, .n .opExp, .t .closeRound]), (.varRoundSuffix, [.t .openRound, .n .opExp, .t .closeRound, .n .varSuffixList])] from by decide +kernel] at hp
    simp only [List.mem_cons, List.not_mem_nil, or_false, Prod.mk.injEq] at hp
    rcases hp with ⟨rfl, rfl⟩ | ⟨rfl, rfl⟩
    · obtain ⟨r1, rfl, hm1⟩ := m_t hm
      obtain ⟨x2, r2, rfl, d2, hm2⟩ := m_n hm1
      obtain ⟨r3, rfl, hm3⟩ := m_t hm2
      cases m_nil hm3
      exact .inl ⟨x2, rfl, d2⟩
    · obtain ⟨r1, rfl, hm1⟩ := m_t hm
      obtain ⟨x2, r2, rfl, d2, hm2⟩ := m_n hm1
      obtain ⟨r3, rfl, hm3⟩ := m_t hm2
      obtain ⟨x4, r4, rfl, d4, hm4⟩ := m_n hm3
      cases m_nil hm4
      exact .inr (⟨x2, x4, rfl, d2, d4⟩)
  · cases t <;> simp [leafTag] at hl

theorem inv_functionCallNoStartsMayEndsPar {c : C} (h : Derives .functionCallNoStartsMayEndsPar c) :
    (∃ x1 x2 , c = .node .var [x1, x2] ∧ Derives .name x1 ∧ Derives .varSuffixList x2) := by
  rcases derives_shape h with ⟨b, hb, hd⟩ | ⟨tag, ss, cs, rfl, hp, hm⟩ | ⟨t, tag, rfl, hl⟩
  · rw [show chainsOf .functionCallNoStartsMayEndsPar = [] from by decide +kernel] at hb
    cases hb
  · rw [show prodsOf .functionCallNoStartsMayEndsPar = [(.var, [.n .name, .n .varSuffixList])] from by decide +kernel] at hp
    simp only [List.mem_cons, List.not_mem_nil, or_false, Prod.mk.injEq] at hp
    obtain ⟨rfl, rfl⟩ := hp
    · obtain ⟨x1, r1, rfl, d1, hm1⟩ := m_n hm
      obtain ⟨x2, r2, rfl, d2, hm2⟩ := m_n hm1
      cases m_nil hm2
      exact ⟨x1, x2, rfl, d1, d2⟩
  · cases t <;> simp [leafTag] at hl

theorem inv_label {c : C} (h : Derives .label c) :
    (∃ x2 , c = .node .label [.tok .label, x2, .tok .label] ∧ Derives .name x2) := by
  rcases derives_shape h with ⟨b, hb, hd⟩ | ⟨tag, ss, cs, rfl, hp, hm⟩ | ⟨t, tag, rfl, hl⟩
  · rw [show chainsOf .label = [] from by decide +kernel] at hb
    cases hb
  · rw [show prodsOf .label = [(.label, [.t .label, .n .name, .t .label])] from by decide +kernel] at hp
    simp only [List.mem_cons, List.not_mem_nil, or_false, Prod.mk.injEq] at hp
    obtain ⟨rfl, rfl⟩ := hp
    · obtain ⟨r1, rfl, hm1⟩ := m_t hm
      obtain ⟨x2, r2, rfl, d2, hm2⟩ := m_n hm1
      obtain ⟨r3, rfl, hm3⟩ := m_t hm2
      cases m_nil hm3
      exact ⟨x2, rfl, d2⟩
  · cases t <;> simp [leafTag] at hl

theorem inv_varListStartsPar {c : C} (h : Derives .varListStartsPar c) :
    Derives .varExp c ∨
    (∃ x1 x3 xs , c = .node (.varList []) (x1 :: .tok .comma :: x3 :: xs) ∧ Derives .varExp x1 ∧ Derives .varMayExp x3 ∧ STail .varMayExp .comma xs) := by
  rcases derives_shape h with ⟨b, hb, hd⟩ | ⟨tag, ss, cs, rfl, hp, hm⟩ | ⟨t, tag, rfl, hl⟩
  · rw [show chainsOf .varListStartsPar = [.varExp] from by decide +kernel] at hb
    simp only [List.mem_cons, List.not_mem_nil, or_false] at hb
    subst hb
    · exact .inl hd
  · rw [show prodsOf .varListStartsPar = [(.varList [], [.n .varExp, .t .comma, .sep .varMayExp .comma])] from by decide +kernel] at hp
    simp only [List.mem_cons, List.not_mem_nil, or_false, Prod.mk.injEq] at hp
    obtain ⟨rfl, rfl⟩ := hp
    · obtain ⟨x1, r1, rfl, d1, hm1⟩ := m_n hm
      obtain ⟨r2, rfl, hm2⟩ := m_t hm1
      obtain ⟨x3, xs, rfl, d3, ds⟩ := m_sep hm2
      exact .inr (⟨x1, x3, _, rfl, d1, d3, ds⟩)
  · cases t <;> simp [leafTag] at hl

theorem inv_varExp {c : C} (h : Derives .varExp c) :
    (∃ x2 x4 , c = .node .varRoundSuffix [.tok .openRound, x2, .tok .closeRound, x4] ∧ Derives .opExp x2 ∧ Derives .varSuffixList x4) := by
  rcases derives_shape h with ⟨b, hb, hd⟩ | ⟨tag, ss, cs, rfl, hp, hm⟩ | ⟨t, tag, rfl, hl⟩
  · rw [show chainsOf .varExp = [] from by decide +kernel] at hb
    cases hb
  · rw [show prodsOf .varExp = [(.varRoundSuffix, [.t .openRound, .n .opExp, .t .closeRound, .n .varSuffixList])] from by decide +kernel] at hp
    simp only [List.mem_cons, List.not_mem_nil, or_false, Prod.mk.injEq] at hp
    obtain ⟨rfl, rfl⟩ := hp
    · obtain ⟨r1, rfl, hm1⟩ := m_t hm
      obtain ⟨x2, r2, rfl, d2, hm2⟩ := m_n hm1
      obtain ⟨r3, rfl, hm3⟩ := m_t hm2
      obtain ⟨x4, r4, rfl, d4, hm4⟩ := m_n hm3
      cases m_nil hm4
      exact ⟨x2, x4, rfl, d2, d4⟩
  · cases t <;> simp [leafTag] at hl

theorem inv_varNoExp {c : C} (h : Derives .varNoExp c) :
    Derives .name c ∨
    (∃ x1 x2 , c = .node .var [x1, x2] ∧ Derives .name x1 ∧ Derives .varSuffixList x2) := by
  rcases derives_shape h with ⟨b, hb, hd⟩ | ⟨tag, ss, cs, rfl, hp, hm⟩ | ⟨t, tag, rfl, hl⟩
  · rw [show chainsOf .varNoExp = [.name] from by decide +kernel] at hb
    simp only [List.mem_cons, List.not_mem_nil, or_false] at hb
    subst hb
    · exact .inl hd
  · rw [show prodsOf .varNoExp = [(.var, [.n .name, .n .varSuffixList])] from by decide +kernel] at hp
    simp only [List.mem_cons, List.not_mem_nil, or_false, Prod.mk.injEq] at hp
    obtain ⟨rfl, rfl⟩ := hp
    · obtain ⟨x1, r1, rfl, d1, hm1⟩ := m_n hm
      obtain ⟨x2, r2, rfl, d2, hm2⟩ := m_n hm1
      cases m_nil hm2
      exact .inr (⟨x1, x2, rfl, d1, d2⟩)
  · cases t <;> simp [leafTag] at hl

theorem inv_name {c : C} (h : Derives .name c) :
    (∃ s, c = .node (.name s) [.tok (.variable s)]) := by
  rcases derives_shape h with ⟨b, hb, hd⟩ | ⟨tag, ss, cs, rfl, hp, hm⟩ | ⟨t, tag, rfl, hl⟩
  · rw [show chainsOf .name = [] from by decide +kernel] at hb
    cases hb
  · rw [show prodsOf .name = [] from by decide +kernel] at hp
    cases hp
  · cases t <;> simp [leafTag] at hl
    · subst hl
      exact ⟨_, rfl⟩

theorem inv_prefixMayStartsMayEndsPar {c : C} (h : Derives .prefixMayStartsMayEndsPar c) :
    Derives .varMayExp c ∨
    (∃ x2 , c = .node .roundBrackets [.tok .openRound, x2, .tok .closeRound] ∧ Derives .opExp x2) := by
  rcases derives_shape h with ⟨b, hb, hd⟩ | ⟨tag, ss, cs, rfl, hp, hm⟩ | ⟨t, tag, rfl, hl⟩
  · rw [show chainsOf .prefixMayStartsMayEndsPar = [.varMayExp] from by decide +kernel] at hb
    simp only [List.mem_cons, List.not_mem_nil, or_false] at hb
    subst hb
    · exact .inl hd
  · rw [show prodsOf .prefixMayStartsMayEndsPar = [(.roundBrackets, [.t .openRound, .n .opExp, .t .closeRound])] from by decide +kernel] at hp
    simp only [List.mem_cons, List.not_mem_nil, or_false, Prod.mk.injEq] at hp
    obtain ⟨rfl, rfl⟩ := hp
    · obtain ⟨r1, rfl, hm1⟩ := m_t hm
      obtain ⟨x2, r2, rfl, d2, hm2⟩ := m_n hm1
      obtain ⟨r3, rfl, hm3⟩ := m_t hm2
      cases m_nil hm3
      exact .inr (⟨x2, rfl, d2⟩)
  · cases t <;> simp [leafTag] at hl

theorem inv_varMayExp {c : C} (h : Derives .varMayExp c) :
    Derives .name c ∨
    (∃ x1 x2 , c = .node .var [x1, x2] ∧ Derives .name x1 ∧ Derives .varSuffixList x2) ∨
    (∃ x2 x4 , c = .node .varRoundSuffix [.tok .openRound, x2, .tok .closeRound, x4] ∧ Derives .opExp x2 ∧ Derives .varSuffixList x4) := by
  rcases derives_shape h with ⟨b, hb, hd⟩ | ⟨tag, ss, cs, rfl, hp, hm⟩ | ⟨t, tag, rfl, hl⟩
  · rw [show chainsOf .varMayExp = [.name] from by decide +kernel] at hb
    simp only [List.mem_cons, List.not_mem_nil, or_false] at hb
    subst hb
    · exact .inl hd
  · rw [show prodsOf .varMayExp = [(.var, [.n .name, .n .varSuffixList]), (.varRoundSuffix, [.t .openRound, .n .opExp, .t .closeRound, .n .varSuffixList])] from by decide +kernel] at hp
    simp only [List.mem_cons, List.not_mem_nil, or_false, Prod.mk.injEq] at hp
    rcases hp with ⟨rfl, rfl⟩ | ⟨rfl, rfl⟩
    · obtain ⟨x1, r1, rfl, d1, hm1⟩ := m_n hm
      obtain ⟨x2, r2, rfl, d2, hm2⟩ := m_n hm1
      cases m_nil hm2
      exact .inr (.inl ⟨x1, x2, rfl, d1, d2⟩)
    · obtain ⟨r1, rfl, hm1⟩ := m_t hm
      obtain ⟨x2, r2, rfl, d2, hm2⟩ := m_n hm1
      obtain ⟨r3, rfl, hm3⟩ := m_t hm2
      obtain ⟨x4, r4, rfl, d4, hm4⟩ := m_n hm3
      cases m_nil hm4
      exact .inr (.inr (⟨x2, x4, rfl, d2, d4⟩))
  · cases t <;> simp [leafTag] at hl

theorem inv_varSuffix {c : C} (h : Derives .varSuffix c) :
    Derives .args c ∨
    (∃ x2 , c = .node .tableIndex [.tok .openSquare, x2, .tok .closeSquare] ∧ Derives .opExp x2) ∨
    (∃ x2 , c = .node .tableMember [.tok .period, x2] ∧ Derives .name x2) ∨
    (∃ x2 x3 , c = .node .fnMethodCall [.tok .colon, x2, x3] ∧ Derives .name x2 ∧ Derives .args x3) := by
  rcases derives_shape h with ⟨b, hb, hd⟩ | ⟨tag, ss, cs, rfl, hp, hm⟩ | ⟨t, tag, rfl, hl⟩
  · rw [show chainsOf .varSuffix = [.args] from by decide +kernel] at hb
    simp only [List.mem_cons, List.not_mem_nil, or_false] at hb
    subst hb
    · exact .inl hd
  · rw [show prodsOf .varSuffix = [(.tableIndex, [.t .openSquare, .n .opExp, .t .closeSquare]), (.tableMember, [.t .period, .n .name]), (.fnMethodCall, [.t .colon, .n .name, .n .args])] from by decide +kernel] at hp
    simp only [List.mem_cons, List.not_mem_nil, or_false, Prod.mk.injEq] at hp
    rcases hp with ⟨rfl, rfl⟩ | ⟨rfl, rfl⟩ | ⟨rfl, rfl⟩
    · obtain ⟨r1, rfl, hm1⟩ := m_t hm
      obtain ⟨x2, r2, rfl, d2, hm2⟩ := m_n hm1
      obtain ⟨r3, rfl, hm3⟩ := m_t hm2
      cases m_nil hm3
      exact .inr (.inl ⟨x2, rfl, d2⟩)
    · obtain ⟨r1, rfl, hm1⟩ := m_t hm
      obtain ⟨x2, r2, rfl, d2, hm2⟩ := m_n hm1
      cases m_nil hm2
      exact .inr (.inr (.inl ⟨x2, rfl, d2⟩))
    · obtain ⟨r1, rfl, hm1⟩ := m_t hm
      obtain ⟨x2, r2, rfl, d2, hm2⟩ := m_n hm1
      obtain ⟨x3, r3, rfl, d3, hm3⟩ := m_n hm2
      cases m_nil hm3
      exact .inr (.inr (.inr (⟨x2, x3, rfl, d2, d3⟩)))
  · cases t <;> simp [leafTag] at hl

theorem inv_args {c : C} (h : Derives .args c) :
    Derives .tableConstructor c ∨
    Derives .stringLiteral c ∨
    (∃ x2 , c = .node .argsRoundBrackets [.tok .openRound, x2, .tok .closeRound] ∧ Derives .expList x2) ∨
    c = .node .argsRoundBracketsEmpty [.tok .openRound, .tok .closeRound] := by
  rcases derives_shape h with ⟨b, hb, hd⟩ | ⟨tag, ss, cs, rfl, hp, hm⟩ | ⟨t, tag, rfl, hl⟩
  · rw [show chainsOf .args = [.tableConstructor, .stringLiteral] from by decide +kernel] at hb
    simp only [List.mem_cons, List.not_mem_nil, or_false] at hb
    rcases hb with rfl | rfl
    · exact .inl hd
    · exact .inr (.inl hd)
  · rw [show prodsOf .args = [(.argsRoundBrackets, [.t .openRound, .n .expList, .t .closeRound]), (.argsRoundBracketsEmpty, [.t .openRound, .t .closeRound])] from by decide +kernel] at hp
    simp only [List.mem_cons, List.not_mem_nil, or_false, Prod.mk.injEq] at hp
    rcases hp with ⟨rfl, rfl⟩ | ⟨rfl, rfl⟩
    · obtain ⟨r1, rfl, hm1⟩ := m_t hm
      obtain ⟨x2, r2, rfl, d2, hm2⟩ := m_n hm1
      obtain ⟨r3, rfl, hm3⟩ := m_t hm2
      cases m_nil hm3
      exact .inr (.inr (.inl ⟨x2, rfl, d2⟩))
    · obtain ⟨r1, rfl, hm1⟩ := m_t hm
      obtain ⟨r2, rfl, hm2⟩ := m_t hm1
      cases m_nil hm2
      exact .inr (.inr (.inr (rfl)))
  · cases t <;> simp [leafTag] at hl

theorem inv_exp {c : C} (h : Derives .exp c) :
    Derives .stringLiteral c ∨
    Derives .functionDef c ∨
    Derives .prefixMayStartsMayEndsPar c ∨
    Derives .tableConstructor c ∨
    c = .node .nil_ [.tok .kwNil] ∨
    c = .node .false_ [.tok .kwFalse] ∨
    c = .node .true_ [.tok .kwTrue] ∨
    c = .node .varArg [.tok .varArg] ∨
    (∃ s, c = .node (.numeral s) [.tok (.numeral s)]) := by
  rcases derives_shape h with ⟨b, hb, hd⟩ | ⟨tag, ss, cs, rfl, hp, hm⟩ | ⟨t, tag, rfl, hl⟩
  · rw [show chainsOf .exp = [.stringLiteral, .functionDef, .prefixMayStartsMayEndsPar, .tableConstructor] from by decide +kernel] at hb
    simp only [List.mem_cons, List.not_mem_nil, or_false] at hb
    rcases hb with rfl | rfl | rfl | rfl
    · exact .inl hd
    · exact .inr (.inl hd)
    · exact .inr (.inr (.inl hd))
    · exact .inr (.inr (.inr (.inl hd)))
  · rw [show prodsOf .exp = [(.nil_, [.t .kwNil]), (.false_, [.t .kwFalse]), (.true_, [.t .kwTrue]), (.varArg, [.t .varArg])] from by decide +kernel] at hp
    simp only [List.mem_cons, List.not_mem_nil, or_false, Prod.mk.injEq] at hp
    rcases hp with ⟨rfl, rfl⟩ | ⟨rfl, rfl⟩ | ⟨rfl, rfl⟩ | ⟨rfl, rfl⟩
    · obtain ⟨r1, rfl, hm1⟩ := m_t hm
      cases m_nil hm1
      exact .inr (.inr (.inr (.inr (.inl rfl))))
    · obtain ⟨r1, rfl, hm1⟩ := m_t hm
      cases m_nil hm1
      exact .inr (.inr (.inr (.inr (.inr (.inl rfl)))))
    · obtain ⟨r1, rfl, hm1⟩ := m_t hm
      cases m_nil hm1
      exact .inr (.inr (.inr (.inr (.inr (.inr (.inl rfl))))))
    · obtain ⟨r1, rfl, hm1⟩ := m_t hm
      cases m_nil hm1
      exact .inr (.inr (.inr (.inr (.inr (.inr (.inr (.inl rfl)))))))
  · cases t <;> simp [leafTag] at hl
    · subst hl
      exact .inr (.inr (.inr (.inr (.inr (.inr (.inr (.inr (⟨_, rfl⟩))))))))

theorem inv_stringLiteral {c : C} (h : Derives .stringLiteral c) :
    (∃ s, c = .node (.normalStringLiteral s) [.tok (.normalString s)]) ∨
    (∃ s, c = .node (.charStringLiteral s) [.tok (.charString s)]) ∨
    (∃ l s, c = .node (.multiLineStringLiteral l s) [.tok (.multiLineString l s)]) := by
  rcases derives_shape h with ⟨b, hb, hd⟩ | ⟨tag, ss, cs, rfl, hp, hm⟩ | ⟨t, tag, rfl, hl⟩
  · rw [show chainsOf .stringLiteral = [] from by decide +kernel] at hb
    cases hb
  · rw [show prodsOf .stringLiteral = [] from by decide +kernel] at hp
    cases hp
  · cases t <;> simp [leafTag] at hl
    · subst hl
      exact .inl ⟨_, rfl⟩
    · subst hl
      exact .inr (.inl ⟨_, rfl⟩)
    · subst hl
      exact .inr (.inr (⟨_, _, rfl⟩))

theorem inv_functionDef {c : C} (h : Derives .functionDef c) :
    (∃ x2 , c = .node .functionDef [.tok .kwFunction, x2] ∧ Derives .funcBody x2) := by
  rcases derives_shape h with ⟨b, hb, hd⟩ | ⟨tag, ss, cs, rfl, hp, hm⟩ | ⟨t, tag, rfl, hl⟩
  · rw [show chainsOf .functionDef = [] from by decide +kernel] at hb
    cases hb
  · rw [show prodsOf .functionDef = [(.functionDef, [.t .kwFunction, .n .funcBody])] from by decide +kernel] at hp
    simp only [List.mem_cons, List.not_mem_nil, or_false, Prod.mk.injEq] at hp
    obtain ⟨rfl, rfl⟩ := hp
    · obtain ⟨r1, rfl, hm1⟩ := m_t hm
      obtain ⟨x2, r2, rfl, d2, hm2⟩ := m_n hm1
      cases m_nil hm2
      exact ⟨x2, rfl, d2⟩
  · cases t <;> simp [leafTag] at hl

theorem inv_tableConstructor {c : C} (h : Derives .tableConstructor c) :
    (∃ x2 , c = .node (.tableConstructor none none) [.tok .openCurly, x2, .tok .closeCurly] ∧ Derives .fieldList x2) ∨
    c = .node .tableConstructorEmpty [.tok .openCurly, .tok .closeCurly] := by
  rcases derives_shape h with ⟨b, hb, hd⟩ | ⟨tag, ss, cs, rfl, hp, hm⟩ | ⟨t, tag, rfl, hl⟩
  · rw [show chainsOf .tableConstructor = [] from by decide +kernel] at hb
    cases hb
  · rw [show prodsOf .tableConstructor = [(.tableConstructor none none, [.t .openCurly, .n .fieldList, .t .closeCurly]), (.tableConstructorEmpty, [.t .openCurly, .t .closeCurly])] from by decide +kernel] at hp
    simp only [List.mem_cons, List.not_mem_nil, or_false, Prod.mk.injEq] at hp
    rcases hp with ⟨rfl, rfl⟩ | ⟨rfl, rfl⟩
    · obtain ⟨r1, rfl, hm1⟩ := m_t hm
      obtain ⟨x2, r2, rfl, d2, hm2⟩ := m_n hm1
      obtain ⟨r3, rfl, hm3⟩ := m_t hm2
      cases m_nil hm3
      exact .inl ⟨x2, rfl, d2⟩
    · obtain ⟨r1, rfl, hm1⟩ := m_t hm
      obtain ⟨r2, rfl, hm2⟩ := m_t hm1
      cases m_nil hm2
      exact .inr (rfl)
  · cases t <;> simp [leafTag] at hl

theorem inv_par {c : C} (h : Derives .par c) :
    Derives .name c ∨
    c = .node .varArg [.tok .varArg] := by
  rcases derives_shape h with ⟨b, hb, hd⟩ | ⟨tag, ss, cs, rfl, hp, hm⟩ | ⟨t, tag, rfl, hl⟩
  · rw [show chainsOf .par = [.name] from by decide +kernel] at hb
    simp only [List.mem_cons, List.not_mem_nil, or_false] at hb
    subst hb
    · exact .inl hd
  · rw [show prodsOf .par = [(.varArg, [.t .varArg])] from by decide +kernel] at hp
    simp only [List.mem_cons, List.not_mem_nil, or_false, Prod.mk.injEq] at hp
    obtain ⟨rfl, rfl⟩ := hp
    · obtain ⟨r1, rfl, hm1⟩ := m_t hm
      cases m_nil hm1
      exact .inr (rfl)
  · cases t <;> simp [leafTag] at hl

theorem inv_opExp {c : C} (h : Derives .opExp c) :
    Derives (.op 0) c := by
  rcases derives_shape h with ⟨b, hb, hd⟩ | ⟨tag, ss, cs, rfl, hp, hm⟩ | ⟨t, tag, rfl, hl⟩
  · rw [show chainsOf .opExp = [.op 0] from by decide +kernel] at hb
    simp only [List.mem_cons, List.not_mem_nil, or_false] at hb
    subst hb
    · exact hd
  · rw [show prodsOf .opExp = [] from by decide +kernel] at hp
    cases hp
  · cases t <;> simp [leafTag] at hl

theorem inv_op0 {c : C} (h : Derives (.op 0) c) :
    Derives (.op 1) c ∨
    (∃ x1 x3 , c = .node (.binaryOp L!"or") [x1, .tok .opLogicalOr, x3] ∧ Derives (.op 0) x1 ∧ Derives (.op 1) x3) := by
  rcases derives_shape h with ⟨b, hb, hd⟩ | ⟨tag, ss, cs, rfl, hp, hm⟩ | ⟨t, tag, rfl, hl⟩
  · rw [show chainsOf (.op 0) = [.op 1] from by decide +kernel] at hb
    simp only [List.mem_cons, List.not_mem_nil, or_false] at hb
    subst hb
    · exact .inl hd
  · rw [show prodsOf (.op 0) = [(.binaryOp L!"or", [.n (.op 0), .t .opLogicalOr, .n (.op 1)])] from by decide +kernel] at hp
    simp only [List.mem_cons, List.not_mem_nil, or_false, Prod.mk.injEq] at hp
    obtain ⟨rfl, rfl⟩ := hp
    · obtain ⟨x1, r1, rfl, d1, hm1⟩ := m_n hm
      obtain ⟨r2, rfl, hm2⟩ := m_t hm1
      obtain ⟨x3, r3, rfl, d3, hm3⟩ := m_n hm2
      cases m_nil hm3
      exact .inr (⟨x1, x3, rfl, d1, d3⟩)
  · cases t <;> simp [leafTag] at hl

theorem inv_op1 {c : C} (h : Derives (.op 1) c) :
    Derives (.op 2) c ∨
    (∃ x1 x3 , c = .node (.binaryOp L!"and") [x1, .tok .opLogicalAnd, x3] ∧ Derives (.op 1) x1 ∧ Derives (.op 2) x3) := by
  rcases derives_shape h with ⟨b, hb, hd⟩ | ⟨tag, ss, cs, rfl, hp, hm⟩ | ⟨t, tag, rfl, hl⟩
  · rw [show chainsOf (.op 1) = [.op 2] from by decide +kernel] at hb
    simp only [List.mem_cons, List.not_mem_nil, or_false] at hb
    subst hb
    · exact .inl hd
  · rw [show prodsOf (.op 1) = [(.binaryOp L!"and", [.n (.op 1), .t .opLogicalAnd, .n (.op 2)])] from by decide +kernel] at hp
    simp only [List.mem_cons, List.not_mem_nil, or_false, Prod.mk.injEq] at hp
    obtain ⟨rfl, rfl⟩ := hp
    · obtain ⟨x1, r1, rfl, d1, hm1⟩ := m_n hm
      obtain ⟨r2, rfl, hm2⟩ := m_t hm1
      obtain ⟨x3, r3, rfl, d3, hm3⟩ := m_n hm2
      cases m_nil hm3
      exact .inr (⟨x1, x3, rfl, d1, d3⟩)
  · cases t <;> simp [leafTag] at hl

theorem inv_op2 {c : C} (h : Derives (.op 2) c) :
    Derives (.op 3) c ∨
    (∃ x1 x3 , c = .node (.binaryOp L!"==") [x1, .tok .opEquality, x3] ∧ Derives (.op 2) x1 ∧ Derives (.op 3) x3) ∨
    (∃ x1 x3 , c = .node (.binaryOp L!"~=") [x1, .tok .opInequality, x3] ∧ Derives (.op 2) x1 ∧ Derives (.op 3) x3) ∨
    (∃ x1 x3 , c = .node (.binaryOp L!"<") [x1, .tok .opLessThan, x3] ∧ Derives (.op 2) x1 ∧ Derives (.op 3) x3) ∨
    (∃ x1 x3 , c = .node (.binaryOp L!">") [x1, .tok .opGreaterThan, x3] ∧ Derives (.op 2) x1 ∧ Derives (.op 3) x3) ∨
    (∃ x1 x3 , c = .node (.binaryOp L!"<=") [x1, .tok .opLessOrEqual, x3] ∧ Derives (.op 2) x1 ∧ Derives (.op 3) x3) ∨
    (∃ x1 x3 , c = .node (.binaryOp L!">=") [x1, .tok .opGreaterOrEqual, x3] ∧ Derives (.op 2) x1 ∧ Derives (.op 3) x3) := by
  rcases derives_shape h with ⟨b, hb, hd⟩ | ⟨tag, ss, cs, rfl, hp, hm⟩ | ⟨t, tag, rfl, hl⟩
  · rw [show chainsOf (.op 2) = [.op 3] from by decide +kernel] at hb
    simp only [List.mem_cons, List.not_mem_nil, or_false] at hb
    subst hb
    · exact .inl hd
  · rw [show prodsOf (.op 2) = [(.binaryOp L!"==", [.n (.op 2), .t .opEquality, .n (.op 3)]), (.binaryOp L!"~=", [.n (.op 2), .t .opInequality, .n (.op 3)]), (.binaryOp L!"<", [.n (.op 2), .t .opLessThan, .n (.op 3)]), (.binaryOp L!">", [.n (.op 2), .t .opGreaterThan, .n (.op 3)]), (.binaryOp L!"<=", [.n (.op 2), .t .opLessOrEqual, .n (.op 3)]), (.binaryOp L!">=", [.n (.op 2), .t .opGreaterOrEqual, .n (.op 3)])] from by decide +kernel] at hp
    simp only [List.mem_cons, List.not_mem_nil, or_false, Prod.mk.injEq] at hp
    rcases hp with ⟨rfl, rfl⟩ | ⟨rfl, rfl⟩ | ⟨rfl, rfl⟩ | ⟨rfl, rfl⟩ | ⟨rfl, rfl⟩ | ⟨rfl, rfl⟩
    · obtain ⟨x1, r1, rfl, d1, hm1⟩ := m_n hm
      obtain ⟨r2, rfl, hm2⟩ := m_t hm1
      obtain ⟨x3, r3, rfl, d3, hm3⟩ := m_n hm2
      cases m_nil hm3
      exact .inr (.inl ⟨x1, x3, rfl, d1, d3⟩)
    · obtain ⟨x1, r1, rfl, d1, hm1⟩ := m_n hm
      obtain ⟨r2, rfl, hm2⟩ := m_t hm1
      obtain ⟨x3, r3, rfl, d3, hm3⟩ := m_n hm2
      cases m_nil hm3
      exact .inr (.inr (.inl ⟨x1, x3, rfl, d1, d3⟩))
    · obtain ⟨x1, r1, rfl, d1, hm1⟩ := m_n hm
      obtain ⟨r2, rfl, hm2⟩ := m_t hm1
      obtain ⟨x3, r3, rfl, d3, hm3⟩ := m_n hm2
      cases m_nil hm3
      exact .inr (.inr (.inr (.inl ⟨x1, x3, rfl, d1, d3⟩)))
    · obtain ⟨x1, r1, rfl, d1, hm1⟩ := m_n hm
      obtain ⟨r2, rfl, hm2⟩ := m_t hm1
      obtain ⟨x3, r3, rfl, d3, hm3⟩ := m_n hm2
      cases m_nil hm3
      exact .inr (.inr (.inr (.inr (.inl ⟨x1, x3, rfl, d1, d3⟩))))
    · obtain ⟨x1, r1, rfl, d1, hm1⟩ := m_n hm
      obtain ⟨r2, rfl, hm2⟩ := m_t hm1
      obtain ⟨x3, r3, rfl, d3, hm3⟩ := m_n hm2
      cases m_nil hm3
      exact .inr (.inr (.inr (.inr (.inr (.inl ⟨x1, x3, rfl, d1, d3⟩)))))
    · obtain ⟨x1, r1, rfl, d1, hm1⟩ := m_n hm
      obtain ⟨r2, rfl, hm2⟩ := m_t hm1
      obtain ⟨x3, r3, rfl, d3, hm3⟩ := m_n hm2
      cases m_nil hm3
      exact .inr (.inr (.inr (.inr (.inr (.inr (⟨x1, x3, rfl, d1, d3⟩))))))
  · cases t <;> simp [leafTag] at hl

theorem inv_op3 {c : C} (h : Derives (.op 3) c) :
    Derives (.op 4) c ∨
    (∃ x1 x3 , c = .node (.binaryOp L!"|") [x1, .tok .opBitwiseOr, x3] ∧ Derives (.op 3) x1 ∧ Derives (.op 4) x3) := by
  rcases derives_shape h with ⟨b, hb, hd⟩ | ⟨tag, ss, cs, rfl, hp, hm⟩ | ⟨t, tag, rfl, hl⟩
  · rw [show chainsOf (.op 3) = [.op 4] from by decide +kernel] at hb
    simp only [List.mem_cons, List.not_mem_nil, or_false] at hb
    subst hb
    · exact .inl hd
  · rw [show prodsOf (.op 3) = [(.binaryOp L!"|", [.n (.op 3), .t .opBitwiseOr, .n (.op 4)])] from by decide +kernel] at hp
    simp only [List.mem_cons, List.not_mem_nil, or_false, Prod.mk.injEq] at hp
    obtain ⟨rfl, rfl⟩ := hp
    · obtain ⟨x1, r1, rfl, d1, hm1⟩ := m_n hm
      obtain ⟨r2, rfl, hm2⟩ := m_t hm1
      obtain ⟨x3, r3, rfl, d3, hm3⟩ := m_n hm2
      cases m_nil hm3
      exact .inr (⟨x1, x3, rfl, d1, d3⟩)
  · cases t <;> simp [leafTag] at hl

theorem inv_op4 {c : C} (h : Derives (.op 4) c) :
    Derives (.op 5) c ∨
    (∃ x1 x3 , c = .node (.binaryOp L!"~") [x1, .tok .tilde, x3] ∧ Derives (.op 4) x1 ∧ Derives (.op 5) x3) := by
  rcases derives_shape h with ⟨b, hb, hd⟩ | ⟨tag, ss, cs, rfl, hp, hm⟩ | ⟨t, tag, rfl, hl⟩
  · rw [show chainsOf (.op 4) = [.op 5] from by decide +kernel] at hb
    simp only [List.mem_cons, List.not_mem_nil, or_false] at hb
    subst hb
    · exact .inl hd
  · rw [show prodsOf (.op 4) = [(.binaryOp L!"~", [.n (.op 4), .t .tilde, .n (.op 5)])] from by decide +kernel] at hp
    simp only [List.mem_cons, List.not_mem_nil, or_false, Prod.mk.injEq] at hp
    obtain ⟨rfl, rfl⟩ := hp
    · obtain ⟨x1, r1, rfl, d1, hm1⟩ := m_n hm
      obtain ⟨r2, rfl, hm2⟩ := m_t hm1
      obtain ⟨x3, r3, rfl, d3, hm3⟩ := m_n hm2
      cases m_nil hm3
      exact .inr (⟨x1, x3, rfl, d1, d3⟩)
  · cases t <;> simp [leafTag] at hl

theorem inv_op5 {c : C} (h : Derives (.op 5) c) :
    Derives (.op 6) c ∨
    (∃ x1 x3 , c = .node (.binaryOp L!"&") [x1, .tok .opBitwiseAnd, x3] ∧ Derives (.op 5) x1 ∧ Derives (.op 6) x3) := by
  rcases derives_shape h with ⟨b, hb, hd⟩ | ⟨tag, ss, cs, rfl, hp, hm⟩ | ⟨t, tag, rfl, hl⟩
  · rw [show chainsOf (.op 5) = [.op 6] from by decide +kernel] at hb
    simp only [List.mem_cons, List.not_mem_nil, or_false] at hb
    subst hb
    · exact .inl hd
  · rw [show prodsOf (.op 5) = [(.binaryOp L!"&", [.n (.op 5), .t .opBitwiseAnd, .n (.op 6)])] from by decide +kernel] at hp
    simp only [List.mem_cons, List.not_mem_nil, or_false, Prod.mk.injEq] at hp
    obtain ⟨rfl, rfl⟩ := hp
    · obtain ⟨x1, r1, rfl, d1, hm1⟩ := m_n hm
      obtain ⟨r2, rfl, hm2⟩ := m_t hm1
      obtain ⟨x3, r3, rfl, d3, hm3⟩ := m_n hm2
      cases m_nil hm3
      exact .inr (⟨x1, x3, rfl, d1, d3⟩)
  · cases t <;> simp [leafTag] at hl

theorem inv_op6 {c : C} (h : Derives (.op 6) c) :
    Derives (.op 7) c ∨
    (∃ x1 x3 , c = .node (.binaryOp L!"<<") [x1, .tok .opLeftShift, x3] ∧ Derives (.op 6) x1 ∧ Derives (.op 7) x3) ∨
    (∃ x1 x3 , c = .node (.binaryOp L!">>") [x1, .tok .opRightShift, x3] ∧ Derives (.op 6) x1 ∧ Derives (.op 7) x3) := by
  rcases derives_shape h with ⟨b, hb, hd⟩ | ⟨tag, ss, cs, rfl, hp, hm⟩ | ⟨t, tag, rfl, hl⟩
  · rw [show chainsOf (.op 6) = [.op 7] from by decide +kernel] at hb
    simp only [List.mem_cons, List.not_mem_nil, or_false] at hb
    subst hb
    · exact .inl hd
  · rw [show prodsOf (.op 6) = [(.binaryOp L!"<<", [.n (.op 6), .t .opLeftShift, .n (.op 7)]), (.binaryOp L!">>", [.n (.op 6), .t .opRightShift, .n (.op 7)])] from by decide +kernel] at hp
    simp only [List.mem_cons, List.not_mem_nil, or_false, Prod.mk.injEq] at hp
    rcases hp with ⟨rfl, rfl⟩ | ⟨rfl, rfl⟩
    · obtain ⟨x1, r1, rfl, d1, hm1⟩ := m_n hm
      obtain ⟨r2, rfl, hm2⟩ := m_t hm1
      obtain ⟨x3, r3, rfl, d3, hm3⟩ := m_n hm2
      cases m_nil hm3
      exact .inr (.inl ⟨x1, x3, rfl, d1, d3⟩)
    · obtain ⟨x1, r1, rfl, d1, hm1⟩ := m_n hm
      obtain ⟨r2, rfl, hm2⟩ := m_t hm1
      obtain ⟨x3, r3, rfl, d3, hm3⟩ := m_n hm2
      cases m_nil hm3
      exact .inr (.inr (⟨x1, x3, rfl, d1, d3⟩))
  · cases t <;> simp [leafTag] at hl

theorem inv_op7 {c : C} (h : Derives (.op 7) c) :
    Derives (.op 8) c ∨
    (∃ x1 x3 , c = .node (.binaryOp L!"..") [x1, .tok .opConcatenation, x3] ∧ Derives (.op 7) x1 ∧ Derives (.op 8) x3) := by
  rcases derives_shape h with ⟨b, hb, hd⟩ | ⟨tag, ss, cs, rfl, hp, hm⟩ | ⟨t, tag, rfl, hl⟩
  · rw [show chainsOf (.op 7) = [.op 8] from by decide +kernel] at hb
    simp only [List.mem_cons, List.not_mem_nil, or_false] at hb
    subst hb
    · exact .inl hd
  · rw [show prodsOf (.op 7) = [(.binaryOp L!"..", [.n (.op 7), .t .opConcatenation, .n (.op 8)])] from by decide +kernel] at hp
    simp only [List.mem_cons, List.not_mem_nil, or_false, Prod.mk.injEq] at hp
    obtain ⟨rfl, rfl⟩ := hp
    · obtain ⟨x1, r1, rfl, d1, hm1⟩ := m_n hm
      obtain ⟨r2, rfl, hm2⟩ := m_t hm1
      obtain ⟨x3, r3, rfl, d3, hm3⟩ := m_n hm2
      cases m_nil hm3
      exact .inr (⟨x1, x3, rfl, d1, d3⟩)
  · cases t <;> simp [leafTag] at hl

theorem inv_op8 {c : C} (h : Derives (.op 8) c) :
    Derives (.op 9) c ∨
    (∃ x1 x3 , c = .node (.binaryOp L!"+") [x1, .tok .opAddition, x3] ∧ Derives (.op 8) x1 ∧ Derives (.op 9) x3) ∨
    (∃ x1 x3 , c = .node (.binaryOp L!"-") [x1, .tok .minus, x3] ∧ Derives (.op 8) x1 ∧ Derives (.op 9) x3) := by
  rcases derives_shape h with ⟨b, hb, hd⟩ | ⟨tag, ss, cs, rfl, hp, hm⟩ | ⟨t, tag, rfl, hl⟩
  · rw [show chainsOf (.op 8) = [.op 9] from by decide +kernel] at hb
    simp only [List.mem_cons, List.not_mem_nil, or_false] at hb
    subst hb
    · exact .inl hd
  · rw [show prodsOf (.op 8) = [(.binaryOp L!"+", [.n (.op 8), .t .opAddition, .n (.op 9)]), (.binaryOp L!"-", [.n (.op 8), .t .minus, .n (.op 9)])] from by decide +kernel] at hp
    simp only [List.mem_cons, List.not_mem_nil, or_false, Prod.mk.injEq] at hp
    rcases hp with ⟨rfl, rfl⟩ | ⟨rfl, rfl⟩
    · obtain ⟨x1, r1, rfl, d1, hm1⟩ := m_n hm
      obtain ⟨r2, rfl, hm2⟩ := m_t hm1
      obtain ⟨x3, r3, rfl, d3, hm3⟩ := m_n hm2
      cases m_nil hm3
      exact .inr (.inl ⟨x1, x3, rfl, d1, d3⟩)
    · obtain ⟨x1, r1, rfl, d1, hm1⟩ := m_n hm
      obtain ⟨r2, rfl, hm2⟩ := m_t hm1
      obtain ⟨x3, r3, rfl, d3, hm3⟩ := m_n hm2
      cases m_nil hm3
      exact .inr (.inr (⟨x1, x3, rfl, d1, d3⟩))
  · cases t <;> simp [leafTag] at hl

theorem inv_op9 {c : C} (h : Derives (.op 9) c) :
    Derives (.op 10) c ∨
    (∃ x1 x3 , c = .node (.binaryOp L!"*") [x1, .tok .opMultiplication, x3] ∧ Derives (.op 9) x1 ∧ Derives (.op 10) x3) ∨
    (∃ x1 x3 , c = .node (.binaryOp L!"/") [x1, .tok .opDivision, x3] ∧ Derives (.op 9) x1 ∧ Derives (.op 10) x3) ∨
    (∃ x1 x3 , c = .node (.binaryOp L!"//") [x1, .tok .opFloorDivision, x3] ∧ Derives (.op 9) x1 ∧ Derives (.op 10) x3) ∨
    (∃ x1 x3 , c = .node (.binaryOp L!"%") [x1, .tok .opModulo, x3] ∧ Derives (.op 9) x1 ∧ Derives (.op 10) x3) := by
  rcases derives_shape h with ⟨b, hb, hd⟩ | ⟨tag, ss, cs, rfl, hp, hm⟩ | ⟨t, tag, rfl, hl⟩
  · rw [show chainsOf (.op 9) = [.op 10] from by decide +kernel] at hb
    simp only [List.mem_cons, List.not_mem_nil, or_false] at hb
    subst hb
    · exact .inl hd
  · rw [show prodsOf (.op 9) = [(.binaryOp L!"*", [.n (.op 9), .t .opMultiplication, .n (.op 10)]), (.binaryOp L!"/", [.n (.op 9), .t .opDivision, .n (.op 10)]), (.binaryOp L!"//", [.n (.op 9), .t .opFloorDivision, .n (.op 10)]), (.binaryOp L!"%", [.n (.op 9), .t .opModulo, .n (.op 10)])] from by decide +kernel] at hp
    simp only [List.mem_cons, List.not_mem_nil, or_false, Prod.mk.injEq] at hp
    rcases hp with ⟨rfl, rfl⟩ | ⟨rfl, rfl⟩ | ⟨rfl, rfl⟩ | ⟨rfl, rfl⟩
    · obtain ⟨x1, r1, rfl, d1, hm1⟩ := m_n hm
      obtain ⟨r2, rfl, hm2⟩ := m_t hm1
      obtain ⟨x3, r3, rfl, d3, hm3⟩ := m_n hm2
      cases m_nil hm3
      exact .inr (.inl ⟨x1, x3, rfl, d1, d3⟩)
    · obtain ⟨x1, r1, rfl, d1, hm1⟩ := m_n hm
      obtain ⟨r2, rfl, hm2⟩ := m_t hm1
      obtain ⟨x3, r3, rfl, d3, hm3⟩ := m_n hm2
      cases m_nil hm3
      exact .inr (.inr (.inl ⟨x1, x3, rfl, d1, d3⟩))
    · obtain ⟨x1, r1, rfl, d1, hm1⟩ := m_n hm
      obtain ⟨r2, rfl, hm2⟩ := m_t hm1
      obtain ⟨x3, r3, rfl, d3, hm3⟩ := m_n hm2
      cases m_nil hm3
      exact .inr (.inr (.inr (.inl ⟨x1, x3, rfl, d1, d3⟩)))
    · obtain ⟨x1, r1, rfl, d1, hm1⟩ := m_n hm
      obtain ⟨r2, rfl, hm2⟩ := m_t hm1
      obtain ⟨x3, r3, rfl, d3, hm3⟩ := m_n hm2
      cases m_nil hm3
      exact .inr (.inr (.inr (.inr (⟨x1, x3, rfl, d1, d3⟩))))
  · cases t <;> simp [leafTag] at hl

theorem inv_op10 {c : C} (h : Derives (.op 10) c) :
    Derives (.op 11) c ∨
    (∃ x2 , c = .node .unaryNot [.tok .opLogicalNot, x2] ∧ Derives (.op 10) x2) ∨
    (∃ x2 , c = .node (.unaryOp L!"#") [.tok .opLength, x2] ∧ Derives (.op 11) x2) ∨
    (∃ x2 , c = .node (.unaryOp L!"-") [.tok .minus, x2] ∧ Derives (.op 11) x2) ∨
    (∃ x2 , c = .node (.unaryOp L!"~") [.tok .tilde, x2] ∧ Derives (.op 11) x2) := by
  rcases derives_shape h with ⟨b, hb, hd⟩ | ⟨tag, ss, cs, rfl, hp, hm⟩ | ⟨t, tag, rfl, hl⟩
  · rw [show chainsOf (.op 10) = [.op 11] from by decide +kernel] at hb
    simp only [List.mem_cons, List.not_mem_nil, or_false] at hb
    subst hb
    · exact .inl hd
  · rw [show prodsOf (.op 10) = [(.unaryNot, [.t .opLogicalNot, .n (.op 10)]), (.unaryOp L!"#", [.t .opLength, .n (.op 11)]), (.unaryOp L!"-", [.t .minus, .n (.op 11)]), (.unaryOp L!"~", [.t .tilde, .n (.op 11)])] from by decide +kernel] at hp
    simp only [List.mem_cons, List.not_mem_nil, or_false, Prod.mk.injEq] at hp
    rcases hp with ⟨rfl, rfl⟩ | ⟨rfl, rfl⟩ | ⟨rfl, rfl⟩ | ⟨rfl, rfl⟩
    · obtain ⟨r1, rfl, hm1⟩ := m_t hm
      obtain ⟨x2, r2, rfl, d2, hm2⟩ := m_n hm1
      cases m_nil hm2
      exact .inr (.inl ⟨x2, rfl, d2⟩)
    · obtain ⟨r1, rfl, hm1⟩ := m_t hm
      obtain ⟨x2, r2, rfl, d2, hm2⟩ := m_n hm1
      cases m_nil hm2
      exact .inr (.inr (.inl ⟨x2, rfl, d2⟩))
    · obtain ⟨r1, rfl, hm1⟩ := m_t hm
      obtain ⟨x2, r2, rfl, d2, hm2⟩ := m_n hm1
      cases m_nil hm2
      exact .inr (.inr (.inr (.inl ⟨x2, rfl, d2⟩)))
    · obtain ⟨r1, rfl, hm1⟩ := m_t hm
      obtain ⟨x2, r2, rfl, d2, hm2⟩ := m_n hm1
      cases m_nil hm2
      exact .inr (.inr (.inr (.inr (⟨x2, rfl, d2⟩))))
  · cases t <;> simp [leafTag] at hl

theorem inv_op11 {c : C} (h : Derives (.op 11) c) :
    Derives .exp c ∨
    (∃ x1 x3 , c = .node (.binaryOp L!"^") [x1, .tok .opExponentiation, x3] ∧ Derives (.op 11) x1 ∧ Derives .exp x3) := by
  rcases derives_shape h with ⟨b, hb, hd⟩ | ⟨tag, ss, cs, rfl, hp, hm⟩ | ⟨t, tag, rfl, hl⟩
  · rw [show chainsOf (.op 11) = [.exp] from by decide +kernel] at hb
    simp only [List.mem_cons, List.not_mem_nil, or_false] at hb
    subst hb
    · exact .inl hd
  · rw [show prodsOf (.op 11) = [(.binaryOp L!"^", [.n (.op 11), .t .opExponentiation, .n .exp])] from by decide +kernel] at hp
    simp only [List.mem_cons, List.not_mem_nil, or_false, Prod.mk.injEq] at hp
    obtain ⟨rfl, rfl⟩ := hp
    · obtain ⟨x1, r1, rfl, d1, hm1⟩ := m_n hm
      obtain ⟨r2, rfl, hm2⟩ := m_t hm1
      obtain ⟨x3, r3, rfl, d3, hm3⟩ := m_n hm2
      cases m_nil hm3
      exact .inr (⟨x1, x3, rfl, d1, d3⟩)
  · cases t <;> simp [leafTag] at hl

theorem inv_elseIfThenVec {c : C} (h : Derives .elseIfThenVec c) :
    (∃ xs , c = .node .elseIfThenVec xs ∧ Many .elseIfThen xs) := by
  rcases derives_shape h with ⟨b, hb, hd⟩ | ⟨tag, ss, cs, rfl, hp, hm⟩ | ⟨t, tag, rfl, hl⟩
  · rw [show chainsOf .elseIfThenVec = [] from by decide +kernel] at hb
    cases hb
  · rw [show prodsOf .elseIfThenVec = [(.elseIfThenVec, [.list .elseIfThen])] from by decide +kernel] at hp
    simp only [List.mem_cons, List.not_mem_nil, or_false, Prod.mk.injEq] at hp
    obtain ⟨rfl, rfl⟩ := hp
    · have ds := m_list hm
      exact ⟨_, rfl, ds⟩
  · cases t <;> simp [leafTag] at hl

theorem inv_elseIfThen {c : C} (h : Derives .elseIfThen c) :
    (∃ x2 , c = .node .elseIfThen [.tok .kwElseIf, x2, .tok .kwThen] ∧ Derives .opExp x2) ∨
    (∃ x2 x4 , c = .node .elseIfThenB [.tok .kwElseIf, x2, .tok .kwThen, x4] ∧ Derives .opExp x2 ∧ Derives .block x4) := by
  rcases derives_shape h with ⟨b, hb, hd⟩ | ⟨tag, ss, cs, rfl, hp, hm⟩ | ⟨t, tag, rfl, hl⟩
  · rw [show chainsOf .elseIfThen = [] from by decide +kernel] at hb
    cases hb
  · rw [show prodsOf .elseIfThen = [(.elseIfThen, [.t .kwElseIf, .n .opExp, .t .kwThen]), (.elseIfThenB, [.t .kwElseIf, .n .opExp, .t .kwThen, .n .block])] from by decide +kernel] at hp
    simp only [List.mem_cons, List.not_mem_nil, or_false, Prod.mk.injEq] at hp
    rcases hp with ⟨rfl, rfl⟩ | ⟨rfl, rfl⟩
    · obtain ⟨r1, rfl, hm1⟩ := m_t hm
      obtain ⟨x2, r2, rfl, d2, hm2⟩ := m_n hm1
      obtain ⟨r3, rfl, hm3⟩ := m_t hm2
      cases m_nil hm3
      exact .inl ⟨x2, rfl, d2⟩
    · obtain ⟨r1, rfl, hm1⟩ := m_t hm
      obtain ⟨x2, r2, rfl, d2, hm2⟩ := m_n hm1
      obtain ⟨r3, rfl, hm3⟩ := m_t hm2
      obtain ⟨x4, r4, rfl, d4, hm4⟩ := m_n hm3
      cases m_nil hm4
      exact .inr (⟨x2, x4, rfl, d2, d4⟩)
  · cases t <;> simp [leafTag] at hl

theorem inv_funcName {c : C} (h : Derives .funcName c) :
    (∃ x1 xs , c = .node (.funcName []) (x1 :: xs) ∧ Derives .name x1 ∧ STail .name .period xs) ∨
    (∃ x1 x3 , c = .node .funcNameSelf [x1, .tok .colon, x3] ∧ Derives .funcNameItems x1 ∧ Derives .name x3) := by
  rcases derives_shape h with ⟨b, hb, hd⟩ | ⟨tag, ss, cs, rfl, hp, hm⟩ | ⟨t, tag, rfl, hl⟩
  · rw [show chainsOf .funcName = [] from by decide +kernel] at hb
    cases hb
  · rw [show prodsOf .funcName = [(.funcName [], [.sep .name .period]), (.funcNameSelf, [.n .funcNameItems, .t .colon, .n .name])] from by decide +kernel] at hp
    simp only [List.mem_cons, List.not_mem_nil, or_false, Prod.mk.injEq] at hp
    rcases hp with ⟨rfl, rfl⟩ | ⟨rfl, rfl⟩
    · obtain ⟨x1, xs, rfl, d1, ds⟩ := m_sep hm
      exact .inl ⟨x1, _, rfl, d1, ds⟩
    · obtain ⟨x1, r1, rfl, d1, hm1⟩ := m_n hm
      obtain ⟨r2, rfl, hm2⟩ := m_t hm1
      obtain ⟨x3, r3, rfl, d3, hm3⟩ := m_n hm2
      cases m_nil hm3
      exact .inr (⟨x1, x3, rfl, d1, d3⟩)
  · cases t <;> simp [leafTag] at hl

theorem inv_varListNoStartPar {c : C} (h : Derives .varListNoStartPar c) :
    (∃ x1 , c = .node (.varList []) [x1] ∧ Derives .varNoExp x1) ∨
    (∃ x1 x3 xs , c = .node (.varList []) (x1 :: .tok .comma :: x3 :: xs) ∧ Derives .varNoExp x1 ∧ Derives .varMayExp x3 ∧ STail .varMayExp .comma xs) := by
  rcases derives_shape h with ⟨b, hb, hd⟩ | ⟨tag, ss, cs, rfl, hp, hm⟩ | ⟨t, tag, rfl, hl⟩
  · rw [show chainsOf .varListNoStartPar = [] from by decide +kernel] at hb
    cases hb
  · rw [show prodsOf .varListNoStartPar = [(.varList [], [.n .varNoExp]), (.varList [], [.n .varNoExp, .t .comma, .sep .varMayExp .comma])] from by decide +kernel] at hp
    simp only [List.mem_cons, List.not_mem_nil, or_false, Prod.mk.injEq] at hp
    rcases hp with ⟨rfl, rfl⟩ | ⟨rfl, rfl⟩
    · obtain ⟨x1, r1, rfl, d1, hm1⟩ := m_n hm
      cases m_nil hm1
      exact .inl ⟨x1, rfl, d1⟩
    · obtain ⟨x1, r1, rfl, d1, hm1⟩ := m_n hm
      obtain ⟨r2, rfl, hm2⟩ := m_t hm1
      obtain ⟨x3, xs, rfl, d3, ds⟩ := m_sep hm2
      exact .inr (⟨x1, x3, _, rfl, d1, d3, ds⟩)
  · cases t <;> simp [leafTag] at hl

theorem inv_varSuffixList {c : C} (h : Derives .varSuffixList c) :
    (∃ xs , c = .node .varSuffixList xs ∧ Many .varSuffix xs) := by
  rcases derives_shape h with ⟨b, hb, hd⟩ | ⟨tag, ss, cs, rfl, hp, hm⟩ | ⟨t, tag, rfl, hl⟩
  · rw [show chainsOf .varSuffixList = [] from by decide +kernel] at hb
    cases hb
  · rw [show prodsOf .varSuffixList = [(.varSuffixList, [.list .varSuffix])] from by decide +kernel] at hp
    simp only [List.mem_cons, List.not_mem_nil, or_false, Prod.mk.injEq] at hp
    obtain ⟨rfl, rfl⟩ := hp
    · have ds := m_list hm
      exact ⟨_, rfl, ds⟩
  · cases t <;> simp [leafTag] at hl

theorem inv_nameList {c : C} (h : Derives .nameList c) :
    (∃ x1 xs , c = .node (.nameList []) (x1 :: xs) ∧ Derives .name x1 ∧ STail .name .comma xs) := by
  rcases derives_shape h with ⟨b, hb, hd⟩ | ⟨tag, ss, cs, rfl, hp, hm⟩ | ⟨t, tag, rfl, hl⟩
  · rw [show chainsOf .nameList = [] from by decide +kernel] at hb
    cases hb
  · rw [show prodsOf .nameList = [(.nameList [], [.sep .name .comma])] from by decide +kernel] at hp
    simp only [List.mem_cons, List.not_mem_nil, or_false, Prod.mk.injEq] at hp
    obtain ⟨rfl, rfl⟩ := hp
    · obtain ⟨x1, xs, rfl, d1, ds⟩ := m_sep hm
      exact ⟨x1, _, rfl, d1, ds⟩
  · cases t <;> simp [leafTag] at hl

theorem inv_expList {c : C} (h : Derives .expList c) :
    (∃ x1 xs , c = .node (.expList []) (x1 :: xs) ∧ Derives .opExp x1 ∧ STail .opExp .comma xs) := by
  rcases derives_shape h with ⟨b, hb, hd⟩ | ⟨tag, ss, cs, rfl, hp, hm⟩ | ⟨t, tag, rfl, hl⟩
  · rw [show chainsOf .expList = [] from by decide +kernel] at hb
    cases hb
  · rw [show prodsOf .expList = [(.expList [], [.sep .opExp .comma])] from by decide +kernel] at hp
    simp only [List.mem_cons, List.not_mem_nil, or_false, Prod.mk.injEq] at hp
    obtain ⟨rfl, rfl⟩ := hp
    · obtain ⟨x1, xs, rfl, d1, ds⟩ := m_sep hm
      exact ⟨x1, _, rfl, d1, ds⟩
  · cases t <;> simp [leafTag] at hl

theorem inv_funcBody {c : C} (h : Derives .funcBody c) :
    c = .node .funcBody [.tok .openRound, .tok .closeRound, .tok .kwEnd] ∨
    (∃ x3 , c = .node .funcBodyB [.tok .openRound, .tok .closeRound, x3, .tok .kwEnd] ∧ Derives .block x3) ∨
    (∃ x2 , c = .node .funcPBody [.tok .openRound, x2, .tok .closeRound, .tok .kwEnd] ∧ Derives .parList x2) ∨
    (∃ x2 x4 , c = .node .funcPBodyB [.tok .openRound, x2, .tok .closeRound, x4, .tok .kwEnd] ∧ Derives .parList x2 ∧ Derives .block x4) := by
  rcases derives_shape h with ⟨b, hb, hd⟩ | ⟨tag, ss, cs, rfl, hp, hm⟩ | ⟨t, tag, rfl, hl⟩
  · rw [show chainsOf .funcBody = [] from by decide +kernel] at hb
    cases hb
  · rw [show prodsOf .funcBody = [(.funcBody, [.t .openRound, .t .closeRound, .t .kwEnd]), (.funcBodyB, [.t .openRound, .t .closeRound, .n .block, .t .kwEnd]), (.funcPBody, [.t .openRound, .n .parList, .t .closeRound, .t .kwEnd]), (.funcPBodyB, [.t .openRound, .n .parList, .t .closeRound, .n .block, .t .kwEnd])] from by decide +kernel] at hp
    simp only [List.mem_cons, List.not_mem_nil, or_false, Prod.mk.injEq] at hp
    rcases hp with ⟨rfl, rfl⟩ | ⟨rfl, rfl⟩ | ⟨rfl, rfl⟩ | ⟨rfl, rfl⟩
    · obtain ⟨r1, rfl, hm1⟩ := m_t hm
      obtain ⟨r2, rfl, hm2⟩ := m_t hm1
      obtain ⟨r3, rfl, hm3⟩ := m_t hm2
      cases m_nil hm3
      exact .inl rfl
    · obtain ⟨r1, rfl, hm1⟩ := m_t hm
      obtain ⟨r2, rfl, hm2⟩ := m_t hm1
      obtain ⟨x3, r3, rfl, d3, hm3⟩ := m_n hm2
      obtain ⟨r4, rfl, hm4⟩ := m_t hm3
      cases m_nil hm4
      exact .inr (.inl ⟨x3, rfl, d3⟩)
    · obtain ⟨r1, rfl, hm1⟩ := m_t hm
      obtain ⟨x2, r2, rfl, d2, hm2⟩ := m_n hm1
      obtain ⟨r3, rfl, hm3⟩ := m_t hm2
      obtain ⟨r4, rfl, hm4⟩ := m_t hm3
      cases m_nil hm4
      exact .inr (.inr (.inl ⟨x2, rfl, d2⟩))
    · obtain ⟨r1, rfl, hm1⟩ := m_t hm
      obtain ⟨x2, r2, rfl, d2, hm2⟩ := m_n hm1
      obtain ⟨r3, rfl, hm3⟩ := m_t hm2
      obtain ⟨x4, r4, rfl, d4, hm4⟩ := m_n hm3
      obtain ⟨r5, rfl, hm5⟩ := m_t hm4
      cases m_nil hm5
      exact .inr (.inr (.inr (⟨x2, x4, rfl, d2, d4⟩)))
  · cases t <;> simp [leafTag] at hl

theorem inv_parList {c : C} (h : Derives .parList c) :
    (∃ x1 xs , c = .node (.parList []) (x1 :: xs) ∧ Derives .par x1 ∧ STail .par .comma xs) := by
  rcases derives_shape h with ⟨b, hb, hd⟩ | ⟨tag, ss, cs, rfl, hp, hm⟩ | ⟨t, tag, rfl, hl⟩
  · rw [show chainsOf .parList = [] from by decide +kernel] at hb
    cases hb
  · rw [show prodsOf .parList = [(.parList [], [.sep .par .comma])] from by decide +kernel] at hp
    simp only [List.mem_cons, List.not_mem_nil, or_false, Prod.mk.injEq] at hp
    obtain ⟨rfl, rfl⟩ := hp
    · obtain ⟨x1, xs, rfl, d1, ds⟩ := m_sep hm
      exact ⟨x1, _, rfl, d1, ds⟩
  · cases t <;> simp [leafTag] at hl

theorem inv_fieldList {c : C} (h : Derives .fieldList c) :
    (∃ xs , c = .node (.fields [] none none) xs ∧ FItems .field xs) := by
  rcases derives_shape h with ⟨b, hb, hd⟩ | ⟨tag, ss, cs, rfl, hp, hm⟩ | ⟨t, tag, rfl, hl⟩
  · rw [show chainsOf .fieldList = [] from by decide +kernel] at hb
    cases hb
  · rw [show prodsOf .fieldList = [(.fields [] none none, [.sepEnd .field])] from by decide +kernel] at hp
    simp only [List.mem_cons, List.not_mem_nil, or_false, Prod.mk.injEq] at hp
    obtain ⟨rfl, rfl⟩ := hp
    · have ds := m_sepEnd hm
      exact ⟨_, rfl, ds⟩
  · cases t <;> simp [leafTag] at hl

theorem inv_field {c : C} (h : Derives .field c) :
    (∃ x2 x5 , c = .node .fieldNamedBracket [.tok .openSquare, x2, .tok .closeSquare, .tok .equalsSign, x5] ∧ Derives .opExp x2 ∧ Derives .opExp x5) ∨
    (∃ x1 x3 , c = .node .fieldNamed [x1, .tok .equalsSign, x3] ∧ Derives .name x1 ∧ Derives .opExp x3) ∨
    (∃ x1 , c = .node .fieldSequential [x1] ∧ Derives .opExp x1) := by
  rcases derives_shape h with ⟨b, hb, hd⟩ | ⟨tag, ss, cs, rfl, hp, hm⟩ | ⟨t, tag, rfl, hl⟩
  · rw [show chainsOf .field = [] from by decide +kernel] at hb
    cases hb
  · rw [show prodsOf .field = [(.fieldNamedBracket, [.t .openSquare, .n .opExp, .t .closeSquare, .t .equalsSign, .n .opExp]), (.fieldNamed, [.n .name, .t .equalsSign, .n .opExp]), (.fieldSequential, [.n .opExp])] from by decide +kernel] at hp
    simp only [List.mem_cons, List.not_mem_nil, or_false, Prod.mk.injEq] at hp
    rcases hp with ⟨rfl, rfl⟩ | ⟨rfl, rfl⟩ | ⟨rfl, rfl⟩
    · obtain ⟨r1, rfl, hm1⟩ := m_t hm
      obtain ⟨x2, r2, rfl, d2, hm2⟩ := m_n hm1
      obtain ⟨r3, rfl, hm3⟩ := m_t hm2
      obtain ⟨r4, rfl, hm4⟩ := m_t hm3
      obtain ⟨x5, r5, rfl, d5, hm5⟩ := m_n hm4
      cases m_nil hm5
      exact .inl ⟨x2, x5, rfl, d2, d5⟩
    · obtain ⟨x1, r1, rfl, d1, hm1⟩ := m_n hm
      obtain ⟨r2, rfl, hm2⟩ := m_t hm1
      obtain ⟨x3, r3, rfl, d3, hm3⟩ := m_n hm2
      cases m_nil hm3
      exact .inr (.inl ⟨x1, x3, rfl, d1, d3⟩)
    · obtain ⟨x1, r1, rfl, d1, hm1⟩ := m_n hm
      cases m_nil hm1
      exact .inr (.inr (⟨x1, rfl, d1⟩))
  · cases t <;> simp [leafTag] at hl

theorem inv_funcNameItems {c : C} (h : Derives .funcNameItems c) :
    (∃ x1 xs , c = .node (.funcNameItems []) (x1 :: xs) ∧ Derives .name x1 ∧ STail .name .period xs) := by
  rcases derives_shape h with ⟨b, hb, hd⟩ | ⟨tag, ss, cs, rfl, hp, hm⟩ | ⟨t, tag, rfl, hl⟩
  · rw [show chainsOf .funcNameItems = [] from by decide +kernel] at hb
    cases hb
  · rw [show prodsOf .funcNameItems = [(.funcNameItems [], [.sep .name .period])] from by decide +kernel] at hp
    simp only [List.mem_cons, List.not_mem_nil, or_false, Prod.mk.injEq] at hp
    obtain ⟨rfl, rfl⟩ := hp
    · obtain ⟨x1, xs, rfl, d1, ds⟩ := m_sep hm
      exact ⟨x1, _, rfl, d1, ds⟩
  · cases t <;> simp [leafTag] at hl

end Luafmt
