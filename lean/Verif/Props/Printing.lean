import Verif.Spec.Recursion
import Verif.Proofs.EmitAll
import Verif.Model.Formatter

/-
C08, C27, C30, C35: the printer's state, one-line constructs, the newline at the end, termination.
-/
namespace Luafmt
open Spec

/-! ### C08 -/

theorem WSpec.free {env : Env} {c : Config} {w : Config → W} {is js : List Item} (h : WSpec True env c w is) :
    WSpec True env c w js :=
  fun c' st st' hv hw => ⟨(h c' st st' hv hw).1, .free trivial (h c' st st' hv hw).2.grows⟩

mutual
theorem ctx_ok (env : Env) (c : Config) : ∀ n : Node, WSpec True env c (mkR env n).w []
  | .mk tag span locs kids => by
    have ih := ctxAll_ok env c kids
    by_cases hl : tag.leafText = none
    · exact (writeW_ok (locs := locs) (span := span) hl ih rfl (.inl trivial)).free
    · intro c' st st' hv h
      obtain ⟨s, hs⟩ := Option.ne_none_iff_exists'.1 hl
      simp only [mkR, writeW, hs] at h
      cases h
      exact ⟨rfl, .free trivial (.append _ _)⟩
theorem ctxAll_ok (env : Env) (c : Config) : ∀ ns : List Node, Kids True env c (mkRs env ns) (ns.map fun _ => [])
  | [] => .nil
  | n :: ns => .cons (ctx_ok env c n) (ctxAll_ok env c ns)
end

/-- C08: whatever node is written, from whatever state and under whatever configuration and range, the
indentation level, the indentation stack and the function level afterwards are those before. -/
theorem C08_indentation_is_restored (env : Env) (c : Config) (n : Node) (st st' : St)
    (h : (mkR env n).w c st = .ok st') : st'.lvl = st.lvl ∧ st'.stack = st.stack ∧ st'.fn = st.fn := by
  have := (ctx_ok env c n c st st' (.refl c) h).1
  simp only [St.ctx, Prod.mk.injEq] at this
  exact this

/-- The state in which a tree is written, for the examples. -/
def Spec.freshState : St := ⟨[], 0, [], 0, ⟨fun _ => false, fun _ => false⟩⟩

/-- A program whose statements open and close every kind of indentation. -/
def Spec.nested : Str := L!"local t = { f(a + b, function() return { 1 } end), x = (g):h().i }\nif a then b() end"

/-- A configuration that indents. -/
def Spec.nestedCfg : Config :=
  ((((((Config.default.set L!"newline_format_table_field" L!"1").set L!"newline_format_statement" L!"1").set
    L!"indentation_string" L!"  ").set L!"newline_format_if" L!"1").set L!"indent_exp_list" L!"true").set
    L!"max_width" L!"20").set L!"newline_format_function" L!"1"

/-- Does writing this program succeed and change the text? -/
def Spec.writesNested (src : Str) (c : Config) (st : St) : Bool :=
  match parseLua src with
  | none => false
  | some n =>
    match (mkR ⟨src, none⟩ n).w c st with
    | .ok st' => st'.f != src && st'.lvl == 2
    | _ => false

example : writesNested nested nestedCfg { freshState with lvl := 2, fn := 1 } = true := by decide +kernel

/-! ### C27 -/

/-- Tables, `if` statements and function bodies. -/
def Spec.collapsible : Tag → Bool
  | .tableConstructor _ _ => true
  | t => t.isIf || t.isFuncBody

theorem takeWhile_append_of_all {α : Type} {p : α → Bool} {a b : List α} (h : ∀ x ∈ a, p x = true) :
    (a ++ b).takeWhile p = a ++ b.takeWhile p := by
  induction a with
  | nil => rfl
  | cons x a ih =>
    rw [List.cons_append, List.takeWhile_cons_of_pos (h x (by simp)), ih (fun y hy => h y (by simp [hy])),
      List.cons_append]

theorem lastLineWidth_append {f s : Str} (h : '\n' ∉ s) : lastLineWidth (f ++ s) = lastLineWidth f + s.length := by
  unfold lastLineWidth
  rw [List.reverse_append, takeWhile_append_of_all]
  · simp [Nat.add_comm]
  · intro x hx
    simp only [List.mem_reverse] at hx
    simp only [bne_iff_ne, ne_eq]
    intro e
    exact h (e ▸ hx)

theorem lenTillNewline_eq {s : Str} (h : '\n' ∉ s) : lenTillNewline s = s.length := by
  unfold lenTillNewline
  have : s.takeWhile (· != '\n') = s := by
    have := takeWhile_append_of_all (p := (· != '\n')) (a := s) (b := []) (fun x hx => by
      simp only [bne_iff_ne, ne_eq]
      intro e
      exact h (e ▸ hx))
    simpa using this
  rw [this]

/-- C27: whenever a table, an `if` statement or a function body is written (inside the range), the result is
what its own arm writes under the given configuration, or it is put on one line: then nothing but one text
without newline is appended, and the line it ends on is shorter than `max_width`. -/
theorem C27_collapsed_constructs_fit (env : Env) (c : Config) (n : Node) (st st' : St)
    (hn : collapsible n.tag = true) (hin : outOfRange env.posRange n.span = false)
    (hcont : notContained env.posRange n.span = false) (h : (mkR env n).w c st = .ok st') :
    (∃ cells, plainW env n.tag n.span n.locs (mkRs env n.kids) c { st with cells := cells } = .ok st') ∨
    ∃ line m, st'.f = st.f ++ line ∧ '\n' ∉ line ∧ c.num .maxWidth = some m ∧ lastLineWidth st'.f < m := by
  obtain ⟨tag, span, locs, kids⟩ := n
  simp only [Node.tag, Node.span, Node.locs, Node.kids] at *
  have hl : tag.leafText = none := by
    cases tag <;> first | rfl | (exfalso; simp [collapsible, Tag.isIf, Tag.isFuncBody] at hn)
  have hw : (mkR env (.mk tag span locs kids)).w c = armW env tag span locs (mkRs env kids) c := by
    simp only [mkR, writeW, hl, hin, hcont, Bool.and_false, Bool.false_eq_true, if_false]
    split <;> rfl
  rw [hw] at h
  unfold armW at h
  split at h
  · exact .inl ⟨st.cells, h⟩
  · next tc htc =>
    simp only [Res.bind_eq_ok] at h
    obtain ⟨⟨st1, x⟩, h1, h2⟩ := h
    have h1' := h1
    simp only [testOnelineNoNl, Res.bind_eq_ok, Res.pure_eq] at h1'
    obtain ⟨⟨st2, r⟩, h3, h4⟩ := h1'
    cases h4
    have hst : ∃ cells, st2 = { st with cells := cells } := by
      unfold testOneline at h3
      split at h3
      · cases h3
      · cases h3; exact ⟨st.cells, rfl⟩
      · split at h3
        · cases h3
        · cases h3; exact ⟨_, rfl⟩
    obtain ⟨cells, rfl⟩ := hst
    have hmw : tc.num .maxWidth = c.num .maxWidth := by
      have hv := onelineCfg_variant (.refl c) htc
      exact hv.numEq (by decide)
    cases r with
    | none => exact .inl ⟨cells, h2⟩
    | some line =>
      simp only at h2
      split at h2
      · next heq =>
        split at heq
        · cases heq
        · next hnl =>
          cases heq
          have hno : '\n' ∉ line := by
            intro hm
            exact hnl (by simpa [hasNewlines] using hm)
          right
          unfold testOneline at h3
          split at h3
          · cases h3
          · simp at h3
          · next sx hx =>
            split at h3
            · cases h3
            · next m hm =>
              simp only [Res.ok.injEq, Prod.mk.injEq] at h3
              obtain ⟨_, h3⟩ := h3
              split at h3
              · next hlt =>
                simp only [Option.some.injEq] at h3
                subst h3
                simp only [Res.pure_eq, Res.ok.injEq] at h2
                have hf : st'.f = st.f ++ sx.f := by
                  rw [← h2]
                  cases tag <;> rfl
                refine ⟨_, m, hf, hno, by rw [← hmw]; exact hm, ?_⟩
                rw [hf, lastLineWidth_append hno]
                rw [lenTillNewline_eq hno] at hlt
                exact hlt
              · cases h3
      · next heq =>
        exact .inl ⟨cells, h2⟩

/-- Both cases occur: a table that fits into the width is put on one line, one that does not fit is not. -/
example : format (((Config.default.set L!"max_width" L!"20").set L!"newline_format_table_constructor" L!"1").set
      L!"force_single_line_table" L!"true" |>.set L!"newline_format_table_field" L!"1") L!"t = {a, b}" =
      .ok L!"t = {a, b}" ∧
    format (((Config.default.set L!"max_width" L!"9").set L!"newline_format_table_constructor" L!"1").set
      L!"force_single_line_table" L!"true" |>.set L!"newline_format_table_field" L!"1") L!"t = {a, b}" =
      .ok L!"t = {\na,\nb\n}" := by decide +kernel

/-! ### C30 -/

theorem indentText_zero (c : Config) : indentText c 0 = [] := by
  unfold indentText; split <;> rfl

theorem ifNewLine_ends {c : Config} {w : Str → Str → Res Str} {h f g : Str}
    (hg : ifNewLine c 0 true w h f = .ok g) : g.getLast? = some '\n' := by
  simp only [ifNewLine, if_true, Res.bind_eq_ok, Res.pure_eq, indentText_zero, List.append_nil] at hg
  obtain ⟨b, hb, hg⟩ := hg
  cases hg
  split
  · split
    · next h1 =>
      rw [List.getLast?_append, h1]; rfl
    · simp
  · generalize (if 1 < byteLen f ∧ (f.getLast? = some ' ' ∨ f.getLast? = some '\t') then f.dropLast else f) = f'
    split
    · assumption
    · simp

/-- The root of a parsed tree is one of the two chunk nodes. -/
theorem parseLua_root {src : Str} {n : Node} (h : parseLua src = some n) :
    (∃ span l0 l1 a, n = .mk .chunk span [l0, l1] [a]) ∨
    ∃ span l0 l1 l2 a b, n = .mk .sheBangChunk span [l0, l1, l2] [a, b] := by
  simp only [parseLua, Option.bind_eq_bind, Option.bind_eq_some_iff] at h
  obtain ⟨toks, _, ⟨sb, b⟩, _, h⟩ := h
  simp only [Option.some.injEq] at h
  subst h
  cases sb <;> cases b
  · exact .inl ⟨_, _, _, _, rfl⟩
  · exact .inl ⟨_, _, _, _, rfl⟩
  · exact .inl ⟨_, _, _, _, rfl⟩
  · exact .inr ⟨_, _, _, _, _, _, rfl⟩

/-- C30: with `write_newline_at_eof = true` the output ends with a newline. -/
theorem C30_output_ends_with_newline (c : Config) (src out : Str)
    (hc : c.bool .writeNewlineAtEof = some true) (h : format c src = .ok out) :
    out.getLast? = some '\n' := by
  unfold format at h
  split at h
  · cases h
  · next tree htree =>
    split at h
    · next s hs =>
      cases h
      simp only [formatTree, Res.bind_eq_ok] at hs
      obtain ⟨pr, _, hs⟩ := hs
      simp only [writeTree, Res.bind_eq_ok, Res.pure_eq] at hs
      obtain ⟨st, h1, h2⟩ := hs
      cases h2
      have key : ∀ (w : W) (st0 st1 st2 : St), st0.lvl = 0 → st1.ctx = st0.ctx → ∀ loc h,
          nlW ⟨src, pr⟩ c true loc h st1 = .ok st2 → st2.f.getLast? = some '\n' := by
        intro w st0 st1 st2 h0 hctx loc h hn
        simp only [nlW, Res.bind_eq_ok, Res.pure_eq] at hn
        obtain ⟨f, hf, hn⟩ := hn
        cases hn
        have : st1.lvl = 0 := by
          simp only [St.ctx, Prod.mk.injEq] at hctx
          rw [hctx.1, h0]
        rw [this] at hf
        exact ifNewLine_ends hf
      have kid : ∀ (m : Node) (over : Option Bool) (s1 s2 : St),
          (mkR ⟨src, pr⟩ (annotate c over m)).w c s1 = .ok s2 → s2.ctx = s1.ctx :=
        fun m over s1 s2 hw => (ctx_ok _ c _ c s1 s2 (.refl c) hw).1
      rcases parseLua_root htree with ⟨span, l0, l1, a, rfl⟩ | ⟨span, l0, l1, l2, a, b, rfl⟩
      · have hw : ∀ (ks : List Node) locs, (mkR ⟨src, pr⟩ (.mk .chunk span locs ks)).w c =
            runAll (runFm ⟨src, pr⟩ locs (mkRs ⟨src, pr⟩ ks) c)
              [.el (.hint 0 []), .el (.kid 0), .el (.nl (decide (c.bool .writeNewlineAtEof = some true)) 1 [])] :=
          fun _ _ => rfl
        simp only [annotate, annotateAll, annotateTag, hw, mkRs, runAll, runFm, runEl, kidW, Res.bind_eq_ok,
          Res.pure_eq, hc, decide_true, List.getElem?_cons_zero] at h1
        obtain ⟨s1, e1, s2, e2, s3, e3, e4⟩ := h1
        cases e4
        refine key (fun _ => .panic) _ s2 _ ?_ ((kid a _ _ _ e2).trans (hintW_ok (.refl c) e1).1) _ _ e3
        rfl
      · have hw : ∀ (ks : List Node) locs, (mkR ⟨src, pr⟩ (.mk .sheBangChunk span locs ks)).w c =
            runAll (runFm ⟨src, pr⟩ locs (mkRs ⟨src, pr⟩ ks) c)
              [.el (.hint 0 []), .el (.kid 0), .el (.hint 1 []), .el (.kid 1),
              .el (.nl (decide (c.bool .writeNewlineAtEof = some true)) 2 [])] :=
          fun _ _ => rfl
        simp only [annotate, annotateAll, annotateTag, hw, mkRs, runAll, runFm, runEl, kidW, Res.bind_eq_ok,
          Res.pure_eq, hc, decide_true, List.getElem?_cons_zero, List.getElem?_cons_succ] at h1
        obtain ⟨s1, e1, s2, e2, s3, e3, s4, e4, s5, e5, e6⟩ := h1
        cases e6
        refine key (fun _ => .panic) _ s4 _ ?_ ((kid b _ _ _ e4).trans
          ((hintW_ok (.refl c) e3).1.trans ((kid a _ _ _ e2).trans
            (hintW_ok (.refl c) e1).1))) _ _ e5
        rfl
    · cases h
    · cases h

example : format (Config.default.set L!"write_newline_at_eof" L!"true") L!"a = 1 --[[x]]  " =
    .ok L!"a = 1 --[[x]]\n" := by decide +kernel

/-! ### C35 -/

theorem onelineCfg_again {c tc : Config} {tag : Tag} {span : Loc} {st : St}
    (h : onelineCfg c tag span st = some tc) (st' : St) : onelineCfg tc tag span st' = none := by
  unfold onelineCfg at h ⊢
  split at h
  · split at h
    · cases h
      simp [Config.num, Config.setNum, Config.setBool, upd]
    · cases h
  · next hne =>
    split at h
    · next hif =>
      split at h
      · cases h
        simp [Config.num, Config.setNum, upd, hif]
      · cases h
    · next hif =>
      split at h
      · next hf =>
        split at h
        · cases h
          simp [Config.num, Config.setNum, upd, hif, hf]
        · cases h
      · cases h

theorem mkRs_eq_map (env : Env) (ns : List Node) : mkRs env ns = ns.map (mkR env) := by
  induction ns with
  | nil => rfl
  | cons n ns ih => simp only [mkRs, List.map_cons, ih]

theorem height_le {n : Node} {ns : List Node} (h : n ∈ ns) : height n ≤ heights ns := by
  induction ns with
  | nil => cases h
  | cons m ns ih =>
    simp only [heights]
    rcases List.mem_cons.1 h with rfl | h
    · omega
    · have := ih h; omega

theorem testOneline_congr {c : Config} {w w' : Config → W} (h : w c = w' c) (st : St) :
    testOnelineNoNl c w st = testOnelineNoNl c w' st := by
  unfold testOnelineNoNl testOneline; rw [h]

theorem armAgain_eq {env : Env} {tag : Tag} {span : Loc} {locs : List Loc} {rs : List R} {self : Config → W}
    {c : Config} (h : ∀ st tc, onelineCfg c tag span st = some tc → self tc = armW env tag span locs rs tc) :
    armAgain env tag span locs rs self c = armW env tag span locs rs c := by
  funext st
  unfold armAgain armW
  cases htc : onelineCfg c tag span st with
  | none => rfl
  | some tc =>
    have e : self tc = plainW env tag span locs rs tc := by
      rw [h st tc htc]
      funext st'
      unfold armW
      rw [onelineCfg_again htc]
    simp only [testOneline_congr e]
    rfl

theorem writeAgain_eq {env : Env} {tag : Tag} {span : Loc} {locs : List Loc} {rs : List R} {self : Config → W}
    {c : Config} (h : ∀ st tc, onelineCfg c tag span st = some tc → self tc = writeW env tag span locs rs tc) :
    writeAgain env tag span locs rs self c = writeW env tag span locs rs c := by
  unfold writeAgain writeW
  cases hl : tag.leafText with
  | some s => rfl
  | none =>
    by_cases ho : (tag.checksRange && outOfRange env.posRange span) = true
    · simp only [ho, if_true]
    · simp only [ho]
      cases hsh : tag.shape with
      | some sh =>
        by_cases hn : notContained env.posRange span = true
        · simp only [hn, if_true]
        · simp only [hn]
          refine armAgain_eq fun st tc htc => ?_
          rw [h st tc htc]
          unfold writeW
          simp only [hl, ho, hsh, hn, if_false, Bool.false_eq_true]
      | none =>
        refine armAgain_eq fun st tc htc => ?_
        rw [h st tc htc]
        unfold writeW
        simp only [hl, ho, hsh, if_false, Bool.false_eq_true]

theorem limited_eq (stop : Node → R) (env : Env) : ∀ (k : Nat),
    (∀ n, 2 * height n ≤ k → limited stop env k n = mkR env n) ∧
    (∀ tag span locs kids c, 2 * height (.mk tag span locs kids) ≤ k + 1 →
      (∀ st, onelineCfg c tag span st = none) →
      (limited stop env k (.mk tag span locs kids)).w c = (mkR env (.mk tag span locs kids)).w c) := by
  intro k
  induction k with
  | zero =>
    refine ⟨?_, ?_⟩
    · intro n h; cases n; simp only [height] at h; omega
    · intro tag span locs kids c h; simp only [height] at h; omega
  | succ k ih =>
    have hkids : ∀ kids : List Node, 2 * (heights kids) ≤ k → kids.map (limited stop env k) = mkRs env kids := by
      intro kids h
      rw [mkRs_eq_map]
      refine List.map_congr_left fun n hn => ih.1 n ?_
      have := height_le hn
      omega
    refine ⟨?_, ?_⟩
    · intro n h
      obtain ⟨tag, span, locs, kids⟩ := n
      simp only [height] at h
      have hk := hkids kids (by omega)
      simp only [limited, mkR, hk]
      congr 1
      funext c
      refine writeAgain_eq fun st tc htc => ?_
      rw [ih.2 tag span locs kids tc (by simp only [height]; omega) (onelineCfg_again htc)]
      rfl
    · intro tag span locs kids c h ho
      simp only [height] at h
      have hk := hkids kids (by omega)
      simp only [limited, mkR, hk]
      exact writeAgain_eq fun st tc htc => by rw [ho st] at htc; cases htc

/-- C35: the printer of the Rust code makes at most `2 * height` nested calls on a tree, whatever the
configuration and the state, so that it does not matter what happens when more calls are needed; what it
computes is what the model computes. -/
theorem C35_printing_terminates (env : Env) (n : Node) (stop : Node → R) (fuel : Nat) (h : 2 * height n ≤ fuel) :
    (limited stop env fuel n).w = (mkR env n).w := by
  rw [(limited_eq stop env fuel).1 n h]

/-- With fewer calls the printer would stop, so the bound means something: the empty table needs one. -/
example (stop : Node → R) (env : Env) (n : Node) : (limited stop env 0 n) = stop n := rfl

/-- C35: a one-line test never leads to another one-line test of the same node. -/
theorem C35_tests_do_not_repeat (c tc : Config) (tag : Tag) (span : Loc) (st st' : St)
    (h : onelineCfg c tag span st = some tc) : onelineCfg tc tag span st' = none :=
  onelineCfg_again h st'

end Luafmt
