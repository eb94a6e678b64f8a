import Verif.Proofs.EmitAll
import Verif.Proofs.Marks

/-
The end of the output.
-/
namespace Luafmt

/-- The last step of a sequence of steps. -/
theorem runAll_last {α : Type} {run : α → W} : ∀ (xs : List α) {x : α} {st st' : St},
    runAll run (xs ++ [x]) st = .ok st' → ∃ st1, run x st1 = .ok st'
  | [], x, st, st', h => by
    simp only [List.nil_append, runAll, Res.bind_eq_ok, Res.pure_eq] at h
    obtain ⟨a, h1, h2⟩ := h
    cases h2
    exact ⟨_, h1⟩
  | y :: ys, x, st, st', h => by
    simp only [List.cons_append, runAll, Res.bind_eq_ok] at h
    obtain ⟨a, h1, h2⟩ := h
    exact runAll_last ys h2

/-- A chunk ends with a newline if that is asked for. -/
theorem chunk_last {env : Env} {c : Config} {tag : Tag} (ht : tag = .chunk ∨ tag = .sheBangChunk)
    (hc : c.bool .writeNewlineAtEof = some true) {span : Loc} {locs : List Loc} {kids : List Node} {out : Str}
    (h : writeTree env c (annotate c none (.mk tag span locs kids)) = .ok out) : ∃ s, out = s ++ ['\n'] := by
  simp only [writeTree, Res.bind_eq_ok, Res.pure_eq] at h
  obtain ⟨st, h1, h2⟩ := h
  cases h2
  have hw := (write_ok (L := True) env c none (.mk tag span locs kids) (.inl trivial) c _ _ (.refl c) h1).1
  have : ∃ st1 i, nlW env c true (locAt locs i) [] st1 = .ok st := by
    rcases ht with rfl | rfl
    · exact (runAll_last [_, _] (x := Fm.el (.nl true 1 [])) (by simpa [annotate, mkR, writeW, annotateTag, Tag.leafText, Tag.checksRange,
        Tag.shape, armW, onelineCfg, Tag.isIf, Tag.isFuncBody, plainW, Tag.template, hc] using h1)).imp fun _ h => ⟨1, h⟩
    · exact (runAll_last [_, _, _, _] (x := Fm.el (.nl true 2 [])) (by simpa [annotate, mkR, writeW, annotateTag, Tag.leafText, Tag.checksRange,
        Tag.shape, armW, onelineCfg, Tag.isIf, Tag.isFuncBody, plainW, Tag.template, hc] using h1)).imp fun _ h => ⟨2, h⟩
  obtain ⟨st1, i, h2⟩ := this
  obtain ⟨a, h3⟩ := nlW_atLevel (.refl c) h2
  have h4 : st.lvl = st1.lvl := by
    simp only [nlW, Res.bind_eq_ok, Res.pure_eq] at h2
    obtain ⟨f, _, h2⟩ := h2
    cases h2
    rfl
  have h5 : st.lvl = 0 := by
    simp only [St.ctx, St.init, Prod.mk.injEq] at hw
    exact hw.1
  rw [← h4, h5] at h3
  refine ⟨a, ?_⟩
  rw [h3]
  unfold indentText
  split <;> rfl

/-- A parsed program is a chunk. -/
theorem parseLua_chunk {src : Str} {tree : Node} (h : parseLua src = some tree) :
    ∃ tag span locs kids, tree = .mk tag span locs kids ∧ (tag = .chunk ∨ tag = .sheBangChunk) := by
  unfold parseLua at h
  simp only [Option.bind_eq_bind, Option.bind_eq_some_iff, Option.some.injEq, Prod.exists] at h
  obtain ⟨toks, hlex, sb, b, hc, rfl⟩ := h
  cases sb <;> cases b
  · exact ⟨_, _, _, _, rfl, .inl rfl⟩
  · exact ⟨_, _, _, _, rfl, .inl rfl⟩
  · exact ⟨_, _, _, _, rfl, .inl rfl⟩
  · exact ⟨_, _, _, _, rfl, .inr rfl⟩

end Luafmt
