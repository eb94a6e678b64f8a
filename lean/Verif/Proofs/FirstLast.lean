import Verif.Proofs.TileAll
import Verif.Proofs.Render

/-
With which tokens the nonterminals of the grammar start and end. The tables are checked against the grammar.
-/
namespace Luafmt
open Spec

/-- A token without its text. -/
def Token.kind : Token → Token
  | .variable _ => .variable []
  | .numeral _ => .numeral []
  | .normalString _ => .normalString []
  | .charString _ => .charString []
  | .multiLineString _ _ => .multiLineString 0 []
  | .sheBang _ => .sheBang []
  | t => t

/-- The kinds of tokens with which a nonterminal starts. -/
def firstToks : NT → List Token
  | .block =>
      [.openRound, .label, .semicolon, .kwBreak, .kwGoto, .kwDo, .kwWhile, .kwIf, .kwFor,
      .kwFunction, .kwLocal, .variable [], .kwRepeat, .kwReturn]
  | .stats =>
      [.openRound, .label, .semicolon, .kwBreak, .kwGoto, .kwDo, .kwWhile, .kwIf, .kwFor,
      .kwFunction, .kwLocal, .variable [], .kwRepeat]
  | .stat =>
      [.label, .semicolon, .kwBreak, .kwGoto, .kwDo, .kwWhile, .kwIf, .kwFor, .kwFunction, .kwLocal,
      .variable [], .kwRepeat]
  | .statStartsMayEndsPar | .varListStartsPar | .functionCallStartsMayEndsPar | .varExp | .funcBody =>
      [.openRound]
  | .statMayEndsPar =>
      [.variable [], .kwRepeat, .kwLocal]
  | .statNoPar =>
      [.label, .semicolon, .kwBreak, .kwGoto, .kwDo, .kwWhile, .kwIf, .kwFor, .kwFunction, .kwLocal]
  | .elseIfThenVec | .elseIfThen =>
      [.kwElseIf]
  | .retStat =>
      [.kwReturn]
  | .label =>
      [.label]
  | .funcName | .varListNoStartPar | .functionCallNoStartsMayEndsPar | .varNoExp | .nameList | .funcNameItems | .name =>
      [.variable []]
  | .prefixMayStartsMayEndsPar | .varMayExp =>
      [.variable [], .openRound]
  | .varSuffixList | .varSuffix =>
      [.openCurly, .normalString [], .charString [], .multiLineString 0 [], .openRound, .openSquare,
      .period, .colon]
  | .expList | .op 0 | .op 1 | .op 2 | .op 3 | .op 4 | .op 5 | .op 6 | .op 7 | .op 8 | .op 9 | .op 10 | .opExp =>
      [.numeral [], .normalString [], .charString [], .multiLineString 0 [], .kwFunction,
      .variable [], .openRound, .openCurly, .kwNil, .kwFalse, .kwTrue, .varArg, .opLogicalNot,
      .opLength, .minus, .tilde]
  | .exp | .op 11 =>
      [.numeral [], .normalString [], .charString [], .multiLineString 0 [], .kwFunction,
      .variable [], .openRound, .openCurly, .kwNil, .kwFalse, .kwTrue, .varArg]
  | .args =>
      [.openCurly, .normalString [], .charString [], .multiLineString 0 [], .openRound]
  | .functionDef =>
      [.kwFunction]
  | .parList | .par =>
      [.variable [], .varArg]
  | .tableConstructor =>
      [.openCurly]
  | .fieldList | .field =>
      [.openSquare, .variable [], .numeral [], .normalString [], .charString [],
      .multiLineString 0 [], .kwFunction, .openRound, .openCurly, .kwNil, .kwFalse, .kwTrue,
      .varArg, .opLogicalNot, .opLength, .minus, .tilde]
  | .stringLiteral =>
      [.normalString [], .charString [], .multiLineString 0 []]
  | .sheBangLine =>
      [.sheBang []]
  | .op _ => []

/-- The kinds of tokens with which a nonterminal ends. -/
def lastToks : NT → List Token
  | .block =>
      [.closeRound, .closeCurly, .normalString [], .charString [], .multiLineString 0 [],
      .closeSquare, .variable [], .numeral [], .kwEnd, .kwNil, .kwFalse, .kwTrue, .varArg, .label,
      .semicolon, .kwBreak, .kwReturn]
  | .stats =>
      [.closeRound, .closeCurly, .normalString [], .charString [], .multiLineString 0 [],
      .closeSquare, .variable [], .numeral [], .kwEnd, .kwNil, .kwFalse, .kwTrue, .varArg, .label,
      .semicolon, .kwBreak]
  | .stat =>
      [.label, .semicolon, .kwBreak, .variable [], .kwEnd, .closeCurly, .normalString [],
      .charString [], .multiLineString 0 [], .closeRound, .closeSquare, .numeral [], .kwNil,
      .kwFalse, .kwTrue, .varArg]
  | .statStartsMayEndsPar =>
      [.closeRound, .closeCurly, .normalString [], .charString [], .multiLineString 0 [],
      .closeSquare, .variable [], .numeral [], .kwEnd, .kwNil, .kwFalse, .kwTrue, .varArg]
  | .statMayEndsPar =>
      [.closeCurly, .normalString [], .charString [], .multiLineString 0 [], .closeRound,
      .closeSquare, .variable [], .numeral [], .kwEnd, .kwNil, .kwFalse, .kwTrue, .varArg]
  | .statNoPar =>
      [.label, .semicolon, .kwBreak, .variable [], .kwEnd]
  | .elseIfThenVec | .elseIfThen =>
      [.kwThen, .closeRound, .closeCurly, .normalString [], .charString [], .multiLineString 0 [],
      .closeSquare, .variable [], .numeral [], .kwEnd, .kwNil, .kwFalse, .kwTrue, .varArg, .label,
      .semicolon, .kwBreak, .kwReturn]
  | .retStat =>
      [.kwReturn, .numeral [], .normalString [], .charString [], .multiLineString 0 [], .kwEnd,
      .variable [], .closeCurly, .closeRound, .closeSquare, .kwNil, .kwFalse, .kwTrue, .varArg,
      .semicolon]
  | .label =>
      [.label]
  | .funcName | .nameList | .funcNameItems | .name =>
      [.variable []]
  | .varListStartsPar | .functionCallNoStartsMayEndsPar | .varExp | .varSuffixList | .varSuffix =>
      [.closeCurly, .normalString [], .charString [], .multiLineString 0 [], .closeRound,
      .closeSquare, .variable []]
  | .varListNoStartPar | .varNoExp | .prefixMayStartsMayEndsPar | .varMayExp =>
      [.variable [], .closeCurly, .normalString [], .charString [], .multiLineString 0 [],
      .closeRound, .closeSquare]
  | .functionCallStartsMayEndsPar =>
      [.closeRound, .closeCurly, .normalString [], .charString [], .multiLineString 0 [],
      .closeSquare, .variable []]
  | .expList | .exp | .field | .op 0 | .op 1 | .op 2 | .op 3 | .op 4 | .op 5 | .op 6 | .op 7 | .op 8 | .op 9 | .op 10 | .op 11 | .opExp =>
      [.numeral [], .normalString [], .charString [], .multiLineString 0 [], .kwEnd, .variable [],
      .closeCurly, .closeRound, .closeSquare, .kwNil, .kwFalse, .kwTrue, .varArg]
  | .args =>
      [.closeCurly, .normalString [], .charString [], .multiLineString 0 [], .closeRound]
  | .functionDef | .funcBody =>
      [.kwEnd]
  | .parList | .par =>
      [.variable [], .varArg]
  | .tableConstructor =>
      [.closeCurly]
  | .fieldList =>
      [.numeral [], .normalString [], .charString [], .multiLineString 0 [], .kwEnd, .variable [],
      .closeCurly, .closeRound, .closeSquare, .kwNil, .kwFalse, .kwTrue, .varArg, .comma, .semicolon]
  | .stringLiteral =>
      [.normalString [], .charString [], .multiLineString 0 []]
  | .sheBangLine =>
      [.sheBang []]
  | .op _ => []

/-- The nonterminals that are reached by productions without action. -/
def chainHeads : NT → List NT
  | .block =>
      [.block, .stats, .retStat]
  | .stats =>
      [.stats]
  | .stat =>
      [.stat, .statNoPar, .statMayEndsPar, .label, .functionCallNoStartsMayEndsPar]
  | .statStartsMayEndsPar =>
      [.statStartsMayEndsPar, .functionCallStartsMayEndsPar]
  | .statMayEndsPar =>
      [.statMayEndsPar, .functionCallNoStartsMayEndsPar]
  | .statNoPar =>
      [.statNoPar, .label]
  | .elseIfThenVec =>
      [.elseIfThenVec]
  | .elseIfThen =>
      [.elseIfThen]
  | .retStat =>
      [.retStat]
  | .label =>
      [.label]
  | .funcName =>
      [.funcName]
  | .varListStartsPar =>
      [.varListStartsPar, .varExp]
  | .varListNoStartPar =>
      [.varListNoStartPar]
  | .functionCallNoStartsMayEndsPar =>
      [.functionCallNoStartsMayEndsPar]
  | .varNoExp =>
      [.varNoExp, .name]
  | .functionCallStartsMayEndsPar =>
      [.functionCallStartsMayEndsPar]
  | .prefixMayStartsMayEndsPar =>
      [.prefixMayStartsMayEndsPar, .varMayExp, .name]
  | .varExp =>
      [.varExp]
  | .varMayExp =>
      [.varMayExp, .name]
  | .varSuffixList =>
      [.varSuffixList]
  | .varSuffix =>
      [.varSuffix, .args, .tableConstructor, .stringLiteral]
  | .nameList =>
      [.nameList]
  | .expList =>
      [.expList]
  | .exp =>
      [.exp, .stringLiteral, .functionDef, .prefixMayStartsMayEndsPar, .tableConstructor, .varMayExp,
      .name]
  | .args =>
      [.args, .tableConstructor, .stringLiteral]
  | .functionDef =>
      [.functionDef]
  | .funcBody =>
      [.funcBody]
  | .parList =>
      [.parList]
  | .par =>
      [.par, .name]
  | .tableConstructor =>
      [.tableConstructor]
  | .fieldList =>
      [.fieldList]
  | .field =>
      [.field]
  | .op 0 =>
      [.op 0, .op 1, .op 2, .op 3, .op 4, .op 5, .op 6, .op 7, .op 8, .op 9, .op 10, .op 11, .exp,
      .stringLiteral, .functionDef, .prefixMayStartsMayEndsPar, .tableConstructor, .varMayExp, .name]
  | .op 1 =>
      [.op 1, .op 2, .op 3, .op 4, .op 5, .op 6, .op 7, .op 8, .op 9, .op 10, .op 11, .exp,
      .stringLiteral, .functionDef, .prefixMayStartsMayEndsPar, .tableConstructor, .varMayExp, .name]
  | .op 2 =>
      [.op 2, .op 3, .op 4, .op 5, .op 6, .op 7, .op 8, .op 9, .op 10, .op 11, .exp, .stringLiteral,
      .functionDef, .prefixMayStartsMayEndsPar, .tableConstructor, .varMayExp, .name]
  | .op 3 =>
      [.op 3, .op 4, .op 5, .op 6, .op 7, .op 8, .op 9, .op 10, .op 11, .exp, .stringLiteral,
      .functionDef, .prefixMayStartsMayEndsPar, .tableConstructor, .varMayExp, .name]
  | .op 4 =>
      [.op 4, .op 5, .op 6, .op 7, .op 8, .op 9, .op 10, .op 11, .exp, .stringLiteral, .functionDef,
      .prefixMayStartsMayEndsPar, .tableConstructor, .varMayExp, .name]
  | .op 5 =>
      [.op 5, .op 6, .op 7, .op 8, .op 9, .op 10, .op 11, .exp, .stringLiteral, .functionDef,
      .prefixMayStartsMayEndsPar, .tableConstructor, .varMayExp, .name]
  | .op 6 =>
      [.op 6, .op 7, .op 8, .op 9, .op 10, .op 11, .exp, .stringLiteral, .functionDef,
      .prefixMayStartsMayEndsPar, .tableConstructor, .varMayExp, .name]
  | .op 7 =>
      [.op 7, .op 8, .op 9, .op 10, .op 11, .exp, .stringLiteral, .functionDef,
      .prefixMayStartsMayEndsPar, .tableConstructor, .varMayExp, .name]
  | .op 8 =>
      [.op 8, .op 9, .op 10, .op 11, .exp, .stringLiteral, .functionDef, .prefixMayStartsMayEndsPar,
      .tableConstructor, .varMayExp, .name]
  | .op 9 =>
      [.op 9, .op 10, .op 11, .exp, .stringLiteral, .functionDef, .prefixMayStartsMayEndsPar,
      .tableConstructor, .varMayExp, .name]
  | .op 10 =>
      [.op 10, .op 11, .exp, .stringLiteral, .functionDef, .prefixMayStartsMayEndsPar,
      .tableConstructor, .varMayExp, .name]
  | .op 11 =>
      [.op 11, .exp, .stringLiteral, .functionDef, .prefixMayStartsMayEndsPar, .tableConstructor,
      .varMayExp, .name]
  | .funcNameItems =>
      [.funcNameItems]
  | .opExp =>
      [.opExp, .op 0, .op 1, .op 2, .op 3, .op 4, .op 5, .op 6, .op 7, .op 8, .op 9, .op 10, .op 11,
      .exp, .stringLiteral, .functionDef, .prefixMayStartsMayEndsPar, .tableConstructor, .varMayExp,
      .name]
  | .name =>
      [.name]
  | .stringLiteral =>
      [.stringLiteral]
  | .sheBangLine =>
      [.sheBangLine]
  | .op _ => []

def Sym.firsts : Sym → List Token
  | .t tok => [tok.kind]
  | .n a | .list a | .sep a _ | .sepEnd a => firstToks a

def Sym.lasts : Sym → List Token
  | .t tok => [tok.kind]
  | .n a | .list a | .sep a _ => lastToks a
  | .sepEnd a => lastToks a ++ [.comma, .semicolon]

def Sym.nts : Sym → List NT
  | .t _ => []
  | .n a | .list a | .sep a _ | .sepEnd a => [a]

/-- The first tokens of a right-hand side. -/
def rhsFirsts : List Sym → List Token
  | [] => []
  | s :: _ => s.firsts

/-- The last tokens of a right-hand side. -/
def rhsLasts : List Sym → List Token
  | [] => []
  | [s] => s.lasts
  | _ :: s :: ss => rhsLasts (s :: ss)

theorem chains_firsts : ∀ p ∈ chains, (firstToks p.2).all (fun k => (firstToks p.1).contains k) = true := by
  decide +kernel

theorem prods_firsts : ∀ p ∈ prods, (p.2.2 ≠ [] ∧ (rhsFirsts p.2.2).all (fun k => (firstToks p.1).contains k) = true) := by
  decide +kernel

theorem chains_lasts : ∀ p ∈ chains, (lastToks p.2).all (fun k => (lastToks p.1).contains k) = true := by
  decide +kernel

theorem prods_lasts : ∀ p ∈ prods, (rhsLasts p.2.2).all (fun k => (lastToks p.1).contains k) = true := by
  decide +kernel

theorem chains_heads : ∀ p ∈ chains, (chainHeads p.2).all (fun k => (chainHeads p.1).contains k) = true := by
  decide +kernel

theorem prods_heads : ∀ p ∈ prods, p.1 ∈ chainHeads p.1 := by decide +kernel

theorem mem_of_all {α : Type} [BEq α] [LawfulBEq α] {l m : List α} (h : l.all (fun k => m.contains k) = true) {x : α} (hx : x ∈ l) :
    x ∈ m := by
  have := List.all_eq_true.mp h x hx
  simpa using this

theorem leafTag_kinds {t : Token} {a : NT} {tag : Tag} (h : leafTag t = some (a, tag)) :
    t.kind ∈ firstToks a ∧ t.kind ∈ lastToks a ∧ a ∈ chainHeads a ∧ itemHint tag = [' '] := by
  unfold leafTag at h
  split at h <;> cases h <;> simp [Token.kind, firstToks, lastToks, chainHeads, itemHint]

mutual
theorem derives_first : ∀ {n : NT} {x : C}, Derives n x → ∃ t ts, x.yield = t :: ts ∧ t.kind ∈ firstToks n
  | _, _, .chain hc h => by
    obtain ⟨t, ts, h1, h2⟩ := derives_first h
    exact ⟨t, ts, h1, mem_of_all (chains_firsts _ hc) h2⟩
  | _, _, .prod hp hm => by
    obtain ⟨hne, hall⟩ := prods_firsts _ hp
    obtain ⟨t, ts, h1, h2⟩ := matches_first hm hne
    exact ⟨t, ts, by simpa [Cst.yield] using h1, mem_of_all hall h2⟩
  | _, _, .leaf hl => ⟨_, [], by simp [Cst.yield, Cst.yields], (leafTag_kinds hl).1⟩
theorem matches_first : ∀ {ss : List Sym} {cs : List C}, Matches ss cs → ss ≠ [] →
    ∃ t ts, Cst.yields cs = t :: ts ∧ t.kind ∈ rhsFirsts ss
  | _, _, .nil, h => absurd rfl h
  | _, _, .t _, _ => ⟨_, _, rfl, by simp [rhsFirsts, Sym.firsts]⟩
  | _, _, .n hd _, _ => by
    obtain ⟨t, ts, h1, h2⟩ := derives_first hd
    exact ⟨t, _, by simp only [Cst.yields, h1]; rfl, h2⟩
  | _, _, .listLast hd _, _ => by
    obtain ⟨t, ts, h1, h2⟩ := derives_first hd
    exact ⟨t, _, by simp only [Cst.yields, h1]; rfl, h2⟩
  | _, _, .listCons hd _, _ => by
    obtain ⟨t, ts, h1, h2⟩ := derives_first hd
    exact ⟨t, _, by simp only [Cst.yields, h1]; rfl, h2⟩
  | _, _, .sepLast hd _, _ => by
    obtain ⟨t, ts, h1, h2⟩ := derives_first hd
    exact ⟨t, _, by simp only [Cst.yields, h1]; rfl, h2⟩
  | _, _, .sepCons hd _, _ => by
    obtain ⟨t, ts, h1, h2⟩ := derives_first hd
    exact ⟨t, _, by simp only [Cst.yields, h1]; rfl, h2⟩
  | _, _, .sepEndLast hd _, _ => by
    obtain ⟨t, ts, h1, h2⟩ := derives_first hd
    exact ⟨t, _, by simp only [Cst.yields, h1]; rfl, h2⟩
  | _, _, .sepEndTrail hd _ _, _ => by
    obtain ⟨t, ts, h1, h2⟩ := derives_first hd
    exact ⟨t, _, by simp only [Cst.yields, h1]; rfl, h2⟩
  | _, _, .sepEndCons hd _ _, _ => by
    obtain ⟨t, ts, h1, h2⟩ := derives_first hd
    exact ⟨t, _, by simp only [Cst.yields, h1]; rfl, h2⟩
end

theorem getLast?_append_some {α : Type} {l m : List α} {x : α} (h : m.getLast? = some x) :
    (l ++ m).getLast? = some x := by
  rw [List.getLast?_append, h]; rfl

theorem rhsLasts_cons {s : Sym} {ss : List Sym} (h : ss ≠ []) : rhsLasts (s :: ss) = rhsLasts ss := by
  cases ss with
  | nil => exact absurd rfl h
  | cons => rfl

theorem matches_nil {cs : List C} (h : Matches [] cs) : cs = [] := by cases h; rfl

theorem last_one {s : Sym} {y : C} {ss : List Sym} {cs : List C} (hm : Matches ss cs)
    (h : ∃ t, y.yield.getLast? = some t ∧ t.kind ∈ s.lasts)
    (h' : ss ≠ [] → ∃ t, (Cst.yields cs).getLast? = some t ∧ t.kind ∈ rhsLasts ss) :
    ∃ t, (Cst.yields (y :: cs)).getLast? = some t ∧ t.kind ∈ rhsLasts (s :: ss) := by
  simp only [Cst.yields]
  by_cases e : ss = []
  · subst e
    rw [matches_nil hm]
    simpa [Cst.yields, rhsLasts] using h
  · rw [rhsLasts_cons e]
    obtain ⟨t, h1, h2⟩ := h' e
    exact ⟨t, getLast?_append_some h1, h2⟩

theorem fieldSep_kind {t : Token} (h : isFieldSep t = true) : t.kind = .comma ∨ t.kind = .semicolon := by
  rcases isFieldSep_cases h with rfl | rfl <;> simp [Token.kind]

theorem sepEnd_last {n : NT} {tok : Token} {ss : List Sym} {cs : List C} (hs : isFieldSep tok = true) (hm : Matches ss cs)
    (h' : ss ≠ [] → ∃ t, (Cst.yields cs).getLast? = some t ∧ t.kind ∈ rhsLasts ss) :
    ∃ t, (Cst.yields ((.tok tok : C) :: cs)).getLast? = some t ∧ t.kind ∈ rhsLasts (.sepEnd n :: ss) := by
  refine last_one (s := .sepEnd n) hm ⟨tok, rfl, ?_⟩ h'
  rcases fieldSep_kind hs with e | e <;> simp [Sym.lasts, e]

mutual
theorem derives_last : ∀ {n : NT} {x : C}, Derives n x → ∃ t, x.yield.getLast? = some t ∧ t.kind ∈ lastToks n
  | _, _, .chain hc h => by
    obtain ⟨t, h1, h2⟩ := derives_last h
    exact ⟨t, h1, mem_of_all (chains_lasts _ hc) h2⟩
  | _, _, .prod hp hm => by
    obtain ⟨hne, _⟩ := prods_firsts _ hp
    obtain ⟨t, h1, h2⟩ := matches_last hm hne
    exact ⟨t, by simpa [Cst.yield] using h1, mem_of_all (prods_lasts _ hp) h2⟩
  | _, _, .leaf hl => ⟨_, by simp [Cst.yield, Cst.yields], (leafTag_kinds hl).2.1⟩
theorem matches_last : ∀ {ss : List Sym} {cs : List C}, Matches ss cs → ss ≠ [] →
    ∃ t, (Cst.yields cs).getLast? = some t ∧ t.kind ∈ rhsLasts ss
  | _, _, .nil, h => absurd rfl h
  | _, _, .t hm, _ => last_one hm ⟨_, rfl, by simp [Sym.lasts]⟩ (matches_last hm)
  | _, _, .n hd hm, _ => last_one hm (derives_last hd) (matches_last hm)
  | _, _, .listLast hd hm, _ => last_one hm (derives_last hd) (matches_last hm)
  | _, _, .listCons hd hm, _ => by
    obtain ⟨t, h1, h2⟩ := matches_last hm (by simp)
    exact ⟨t, by simp only [Cst.yields]; exact getLast?_append_some h1, h2⟩
  | _, _, .sepLast hd hm, _ => last_one hm (derives_last hd) (matches_last hm)
  | _, _, .sepCons hd hm, _ => by
    obtain ⟨t, h1, h2⟩ := matches_last hm (by simp)
    exact ⟨t, by simp only [Cst.yields]; exact getLast?_append_some (getLast?_append_some h1), h2⟩
  | _, _, .sepEndLast hd hm, _ => by
    refine last_one hm ?_ (matches_last hm)
    obtain ⟨t, h1, h2⟩ := derives_last hd
    exact ⟨t, h1, by simp [Sym.lasts, h2]⟩
  | _, _, .sepEndTrail hd hs hm, _ => by
    obtain ⟨t, h1, h2⟩ := sepEnd_last hs hm (matches_last hm)
    refine ⟨t, ?_, h2⟩
    simp only [Cst.yields] at h1 ⊢
    exact getLast?_append_some h1
  | _, _, .sepEndCons hd _ hm, _ => by
    obtain ⟨t, h1, h2⟩ := matches_last hm (by simp)
    exact ⟨t, by simp only [Cst.yields]; exact getLast?_append_some (getLast?_append_some h1), h2⟩
end

theorem derives_head : ∀ {n : NT} {x : C}, Derives n x →
    (∃ a tag ss cs, x = .node tag cs ∧ (a, tag, ss) ∈ prods ∧ a ∈ chainHeads n ∧ Matches ss cs) ∨
    (∃ a tag t, x = .node tag [.tok t] ∧ leafTag t = some (a, tag))
  | _, _, .chain hc h => by
    rcases derives_head h with ⟨a, tag, ss, cs, h1, h2, h3, h4⟩ | h
    · exact .inl ⟨a, tag, ss, cs, h1, h2, mem_of_all (chains_heads _ hc) h3, h4⟩
    · exact .inr h
  | _, _, .prod hp hm => .inl ⟨_, _, _, _, rfl, hp, prods_heads _ hp, hm⟩
  | _, _, .leaf hl => .inr ⟨_, _, _, rfl, hl⟩

/-- The trees of a right-hand side are tokens or derived from one of its nonterminals. -/
theorem matches_nts : ∀ {ss : List Sym} {cs : List C}, Matches ss cs → ∀ y ∈ cs,
    (∃ t, y = .tok t) ∨ ∃ n ∈ ss.flatMap Sym.nts, Derives n y
  | _, _, .nil, _, h => nomatch h
  | _, _, .t hm, y, h => by
    rcases List.mem_cons.mp h with rfl | h
    · exact .inl ⟨_, rfl⟩
    · exact (matches_nts hm _ h).imp_right fun ⟨n, h1, h2⟩ => ⟨n, by simp [h1], h2⟩
  | _, _, .n hd hm, y, h => by
    rcases List.mem_cons.mp h with rfl | h
    · exact .inr ⟨_, by simp [Sym.nts], hd⟩
    · exact (matches_nts hm _ h).imp_right fun ⟨n, h1, h2⟩ => ⟨n, by rw [List.flatMap_cons]; simp [h1], h2⟩
  | _, _, .listLast hd hm, y, h => by
    rcases List.mem_cons.mp h with rfl | h
    · exact .inr ⟨_, by simp [Sym.nts], hd⟩
    · exact (matches_nts hm _ h).imp_right fun ⟨n, h1, h2⟩ => ⟨n, by rw [List.flatMap_cons]; simp [h1], h2⟩
  | _, _, .listCons hd hm, y, h => by
    rcases List.mem_cons.mp h with rfl | h
    · exact .inr ⟨_, by simp [Sym.nts], hd⟩
    · exact matches_nts hm _ h
  | _, _, .sepLast hd hm, y, h => by
    rcases List.mem_cons.mp h with rfl | h
    · exact .inr ⟨_, by simp [Sym.nts], hd⟩
    · exact (matches_nts hm _ h).imp_right fun ⟨n, h1, h2⟩ => ⟨n, by rw [List.flatMap_cons]; simp [h1], h2⟩
  | _, _, .sepCons hd hm, y, h => by
    rcases List.mem_cons.mp h with rfl | h
    · exact .inr ⟨_, by simp [Sym.nts], hd⟩
    · rcases List.mem_cons.mp h with rfl | h
      · exact .inl ⟨_, rfl⟩
      · exact matches_nts hm _ h
  | _, _, .sepEndLast hd hm, y, h => by
    rcases List.mem_cons.mp h with rfl | h
    · exact .inr ⟨_, by simp [Sym.nts], hd⟩
    · exact (matches_nts hm _ h).imp_right fun ⟨n, h1, h2⟩ => ⟨n, by rw [List.flatMap_cons]; simp [h1], h2⟩
  | _, _, .sepEndTrail hd _ hm, y, h => by
    rcases List.mem_cons.mp h with rfl | h
    · exact .inr ⟨_, by simp [Sym.nts], hd⟩
    · rcases List.mem_cons.mp h with rfl | h
      · exact .inl ⟨_, rfl⟩
      · exact (matches_nts hm _ h).imp_right fun ⟨n, h1, h2⟩ => ⟨n, by rw [List.flatMap_cons]; simp [h1], h2⟩
  | _, _, .sepEndCons hd _ hm, y, h => by
    rcases List.mem_cons.mp h with rfl | h
    · exact .inr ⟨_, by simp [Sym.nts], hd⟩
    · rcases List.mem_cons.mp h with rfl | h
      · exact .inl ⟨_, rfl⟩
      · exact matches_nts hm _ h

/-! ### Adjacent tokens -/

/-- The tokens may stand next to each other as far as the printer cares. -/
def adjK (p t : Token) : Bool := adj p t || sqLong p t

theorem headOf_kind (t : Token) : headOf t.kind = headOf t := by cases t <;> rfl

theorem joinsCh_kind (t : Token) (c : Char) : joinsCh t.kind c = joinsCh t c := by cases t <;> rfl

theorem joins_kind (t : Token) (h : Head) : joins t.kind h = joins t h := by
  cases h <;> simp only [joins, joinsCh_kind]

theorem sqLong_kind (p t : Token) : sqLong p.kind t.kind = sqLong p t := by
  cases p <;> first | rfl | (cases t <;> rfl)

theorem adjK_kind (p t : Token) : adjK p.kind t.kind = adjK p t := by
  simp only [adjK, adj, headOf_kind, joins_kind, sqLong_kind]

end Luafmt
