import Verif.Proofs.AskPair

/-
In the output a token begins a line only where an option asks for it.
-/
namespace Luafmt
open Spec

variable {c : Config} {Q : Option Nat → Prop}

/-! ### The places exist -/

/-- What is checked of the productions: the places where a line may be asked for exist. -/
def askProd (p : NT × Tag × List Sym) : Bool :=
  (match lineBreaks p.2.1 with | some (_, ps) => ps.all fun q => q.1 + 1 < p.2.2.length | none => true) &&
  (match p.2.1 with
    | .statsRetStat => 1 < p.2.2.length
    | .tableConstructor _ _ => 2 < p.2.2.length
    | .binaryOp _ => 2 < p.2.2.length
    | .chunk | .sheBangChunk => false
    | _ => true)

theorem askProd_all : ∀ p ∈ prods, askProd p = true := by decide +kernel

theorem askProd_place {p : NT × Tag × List Sym} (h : askProd p = true) {g : Nat} (hp : PlaceAsks c p.2.1 g) : g + 1 < p.2.2.length := by
  obtain ⟨n, tag, ss⟩ := p
  simp only [askProd, Bool.and_eq_true] at h
  obtain ⟨h1, h2⟩ := h
  rcases hp with ⟨o, ps, d, e, _, hm⟩ | ⟨rfl, rfl, _⟩ | ⟨⟨iv, sg, rfl⟩, rfl, _⟩ | ⟨⟨op, rfl⟩, ⟨rfl, _⟩ | ⟨rfl, _⟩⟩
  · simp only at e
    rw [e] at h1
    exact of_decide_eq_true (List.all_eq_true.1 h1 _ hm)
  · exact of_decide_eq_true h2
  · exact of_decide_eq_true h2
  · have : 2 < ss.length := of_decide_eq_true h2
    simp only; omega
  · exact of_decide_eq_true h2

theorem leaf_asks {t : Tag} (h : t.leafText.isSome = true) {g : Nat} : ¬ PlaceAsks c t g ∧ t ≠ .chunk ∧ t ≠ .sheBangChunk := by
  cases t <;> simp [Tag.leafText] at h <;> simp [PlaceAsks, lineBreaks]

/-- A place where a line is asked for exists. -/
theorem place_exists {n : NT} {tag : Tag} {xs : List (Cst TokL)} (h : Derives n (.node tag (stripAll xs))) {g : Nat}
    (hp : Place c tag g) : PlaceAsks c tag g ∧ g < (gapsOf (placeAll xs)).length := by
  rcases derives_inv h with ⟨a, tag', ss, cs, e, hm, hx⟩ | ⟨a, tag', t, e, hl⟩
  · cases e
    have ha := askProd_all _ hm
    have hp' : PlaceAsks c tag g := by
      refine hp.resolve_right fun ⟨hc, _⟩ => ?_
      simp only [askProd, Bool.and_eq_true] at ha
      rcases hc with ⟨rfl, _⟩ | ⟨rfl, _⟩ <;> exact Bool.false_ne_true ha.2
    refine ⟨hp', ?_⟩
    have hlt := askProd_place ha hp'
    have hr := readyProd_all _ hm
    simp only [readyProd, Bool.and_eq_true] at hr
    have hs : tag.seps = none := by
      cases hs : tag.seps with
      | none => rfl
      | some _ => exact absurd hp' (placeAsks_list (.inl (by rw [hs]; rfl)))
    have hpl : tag.isPlainList = false := by
      cases hpl : tag.isPlainList with
      | false => rfl
      | true => exact absurd hp' (placeAsks_list (.inr hpl))
    have hr1 := hr.1.1
    simp only [hs, hpl, Option.isSome_none, Bool.false_or, Bool.and_eq_true] at hr1
    rw [gapsOf_length, placeAll_length, fits_length (fitsD_of_matches hr1.2 hx)]
    simp only at hlt
    omega
  · cases xs with
    | nil => simp [stripAll] at e
    | cons y ys =>
      simp only [Cst.node.injEq] at e
      obtain ⟨rfl, _⟩ := e
      obtain ⟨hs, _⟩ := leafTag_text hl
      have := leaf_asks (c := c) (t := tag) (g := g) (by rw [hs]; rfl)
      rcases hp with hp | ⟨⟨hp, _⟩ | ⟨hp, _⟩, _⟩
      · exact absurd hp this.1
      · exact absurd hp this.2.1
      · exact absurd hp this.2.2

theorem place_noSeps {t : Tag} (h : t.seps.isSome = true) {x : List Str} {g : Nat} : ¬ Place c (t.setSeps x) g := by
  rintro (hp | ⟨⟨hp, _⟩ | ⟨hp, _⟩, _⟩)
  · exact placeAsks_list (.inl (by rw [setSeps_seps h]; rfl)) hp
  · cases t <;> simp [Tag.seps] at h <;> cases hp
  · cases t <;> simp [Tag.seps] at h <;> cases hp

mutual
/-- A parsed tree may begin lines where it is asked for. -/
theorem place_allows : ∀ (x : Cst TokL), Real x → ∀ n, placeC x = .node n → (∀ p, Asked c n p → Q (some p)) → n.Allows Q c
  | .tok t, _, n, e, _ => by cases e
  | .node tag xs, hr, n, e, hq => by
    have hk := (real_kids hr).2
    cases e
    obtain ⟨_, hd⟩ := real_derives hr
    have hpl := fun g => place_exists hd (c := c) (g := g)
    obtain ⟨span, _, ⟨pre, sps, hs, e, _⟩ | ⟨pre, hs, hpl', e, _⟩ | ⟨hs, hpl', e⟩⟩ := buildNode_eq tag xs
    all_goals
      rw [e] at hq ⊢
      refine ⟨fun g hg => ?_, fun i item loc h1 h2 h3 => hq _ ⟨_, _, _, _, loc, .refl, rfl, .inr ⟨i, item, h1, h2, h3⟩⟩,
        place_allowsAll xs hk fun n hn p hp => hq p (hp.kid hn)⟩
    · exact absurd hg (place_noSeps (by rw [hs]; rfl))
    · exact absurd (hpl g hg).1 (placeAsks_list (.inr hpl'))
    · obtain ⟨h1, h2⟩ := hpl g hg
      have h3 : (gapsOf (placeAll xs))[g]? = some ((gapsOf (placeAll xs))[g]'h2) := List.getElem?_eq_getElem _
      rw [locAt_of h3]
      exact hq _ ⟨_, _, _, _, _, .refl, rfl, .inl ⟨g, h3, h1⟩⟩
theorem place_allowsAll : ∀ (xs : List (Cst TokL)), (∀ y ∈ xs, Real y) → (∀ n ∈ kidsOf xs, ∀ p, Asked c n p → Q (some p)) →
    Node.AllowsAll Q c (kidsOf xs)
  | [], _, _ => trivial
  | .tok t :: xs, hr, hq => place_allowsAll xs (fun y hy => hr y (List.mem_cons_of_mem _ hy)) hq
  | .node tag ys :: xs, hr, hq => by
    have h1 := place_allows (.node tag ys) (hr _ List.mem_cons_self) _ rfl
    have h2 := place_allowsAll xs (fun y hy => hr y (List.mem_cons_of_mem _ hy)) (fun n hn => hq n (List.mem_cons_of_mem _ hn))
    exact ⟨h1 (hq _ List.mem_cons_self), h2⟩
end

theorem written_allows {A : TokL → TokL → Prop} {x x' : Cst TokL} (h : Written c A x x')
    (hq : ∀ p, Asked c (placeNode x) p → Q (some p)) : (placeNode x).Allows Q c := by
  obtain ⟨n, h1, _⟩ := h.derives
  exact place_allows x (.inr ⟨n, h1⟩) _ (placeC_node h1) hq

theorem itemAsks_chunk {t i : Tag} {b : Bool} (ht : t = .chunk ∨ t = .sheBangChunk) (h : ItemAsks c t b i) : False := by
  rcases ht with rfl | rfl <;> exact h

/-- The tree of a program may begin lines where it is asked for, and at its end. -/
theorem chunk_allows {A : TokL → TokL → Prop} {e e' : Nat} {tree tree' : Node} (h : ChunkPair (Written c A) e e' tree tree')
    (hq : ∀ p, Asked c tree p → Q (some p)) (he : c.bool .writeNewlineAtEof = some true → Q (some e)) : tree.Allows Q c := by
  cases h with
  | empty =>
    refine ⟨fun g hg => ?_, fun i item loc _ _ h => (itemAsks_chunk (.inl rfl) h).elim, ⟨fun g hg => ?_, fun i item loc h => (by cases h), trivial⟩, trivial⟩
    · rcases hg with hg | ⟨⟨_, rfl⟩ | ⟨hg, _⟩, hn⟩
      · simp [PlaceAsks, lineBreaks] at hg
      · exact he hn
      · cases hg
    · rcases hg with hg | ⟨⟨hg, _⟩ | ⟨hg, _⟩, hn⟩
      · simp [PlaceAsks, lineBreaks] at hg
      · cases hg
      · cases hg
  | one h =>
    refine ⟨fun g hg => ?_, fun i item loc _ _ h => (itemAsks_chunk (.inl rfl) h).elim, written_allows h fun p hp => hq p (hp.kid List.mem_cons_self), trivial⟩
    rcases hg with hg | ⟨⟨_, rfl⟩ | ⟨hg, _⟩, hn⟩
    · simp [PlaceAsks, lineBreaks] at hg
    · exact he hn
    · cases hg
  | two h1 h2 =>
    refine ⟨fun g hg => ?_, fun i item loc _ _ h => (itemAsks_chunk (.inr rfl) h).elim, written_allows h1 fun p hp => hq p (hp.kid List.mem_cons_self),
      written_allows h2 fun p hp => hq p (hp.kid (List.mem_cons_of_mem _ List.mem_cons_self)), trivial⟩
    rcases hg with hg | ⟨⟨hg, _⟩ | ⟨_, rfl⟩, hn⟩
    · simp [PlaceAsks, lineBreaks] at hg
    · cases hg
    · exact he hn

theorem chunk_tag {P : Cst TokL → Cst TokL → Prop} {e e' : Nat} {tree tree' : Node} (h : ChunkPair P e e' tree tree') :
    gappy false (tree.items c) := by
  cases h with
  | empty => exact chunk_gappy (.inl rfl) _ _ _
  | one _ => exact chunk_gappy (.inl rfl) _ _ _
  | two _ _ => exact chunk_gappy (.inr rfl) _ _ _

/-! ### Pairs of tokens -/

theorem tiles_pairwise : ∀ {ts : List TokL} {s : Str} {a : Nat}, TilesR s a ts → ts.Pairwise fun t u => t.l < u.l
  | [], _, _, h => h.elim
  | t :: ts, s, a, h => by
    refine List.pairwise_cons.2 ⟨tiles_lt h, ?_⟩
    rcases h with ⟨_, rfl, _⟩ | ⟨g, u, s', _, _, _, _, _, _, _, h8⟩
    · exact .nil
    · exact tiles_pairwise h8

/-- The written tokens are paired with those of the source, except for separators of fields. -/
theorem outs_paired {A : TokL → TokL → Prop} {ts ts' os : List TokL} {is : List Item} (hl : c.lineRange = none) (h : Outs c A ts is ts' os) :
    (ts.Pairwise fun t u => t.l < u.l) →
    ∃ l : List (TokL × TokL), Outs c (fun t t' => A t t' ∧ (t, t') ∈ l) ts is ts' os ∧
      (∀ q ∈ l, q.1 ∈ litToks is ts ∧ TokNew c q.1.tok q.2.tok ∧ A q.1 q.2) ∧ (∀ q ∈ l, ∀ q' ∈ l, q.1.l = q'.1.l → q.2 = q'.2) ∧
      ∀ t' ∈ os, isFieldSep t'.tok = true ∨ ∃ t, (t, t') ∈ l := by
  induction h with
  | nil => exact fun _ => ⟨[], .nil, fun _ h => (by cases h), fun _ h => (by cases h), fun _ h => (by cases h)⟩
  | gap _ ih =>
    intro hp
    obtain ⟨l, h1, h2, h3, h4⟩ := ih hp
    exact ⟨l, .gap h1, h2, h3, h4⟩
  | extra _ ih =>
    intro hp
    obtain ⟨l, h1, h2, h3, h4⟩ := ih hp
    exact ⟨l, .extra h1, h2, h3, h4⟩
  | @lit t t' ts ts' os src is hn hA _ ih =>
    intro hp
    obtain ⟨hp1, hp2⟩ := List.pairwise_cons.1 hp
    obtain ⟨l, h1, h2, h3, h4⟩ := ih hp2
    refine ⟨(t, t') :: l, .lit hn ⟨hA, List.mem_cons_self⟩ (h1.mono fun t _ t' h => ⟨h.1, List.mem_cons_of_mem _ h.2⟩), ?_, ?_, ?_⟩
    · intro q hq
      rcases List.mem_cons.1 hq with rfl | hq
      · exact ⟨by simp [litToks], hn, hA⟩
      · exact ⟨by simp [litToks, (h2 q hq).1], (h2 q hq).2⟩
    · intro q hq q' hq' e
      rcases List.mem_cons.1 hq with rfl | hq <;> rcases List.mem_cons.1 hq' with rfl | hq'
      · rfl
      · have := hp1 _ (litToks_sub _ (h2 q' hq').1)
        simp only at e
        omega
      · have := hp1 _ (litToks_sub _ (h2 q hq).1)
        simp only at e
        omega
      · exact h3 q hq q' hq' e
    · intro u hu
      rcases List.mem_cons.1 hu with rfl | hu
      · exact .inr ⟨t, List.mem_cons_self⟩
      · exact (h4 u hu).imp id fun ⟨t, h⟩ => ⟨t, List.mem_cons_of_mem _ h⟩
  | none h _ ih =>
    intro hp
    obtain ⟨l, h1, h2, h3, h4⟩ := ih hp
    exact ⟨l, .none h h1, h2, h3, h4⟩
  | add e1 e2 e3 _ ih =>
    intro hp
    obtain ⟨l, h1, h2, h3, h4⟩ := ih hp
    refine ⟨l, .add e1 e2 e3 h1, h2, h3, fun u hu => ?_⟩
    rcases List.mem_cons.1 hu with rfl | hu
    · exact .inl e1
    · exact h4 u hu
  | drop e1 e2 _ ih =>
    intro hp
    obtain ⟨l, h1, h2, h3, h4⟩ := ih (List.pairwise_cons.1 hp).2
    exact ⟨l, .drop e1 e2 h1, fun q hq => ⟨by rw [litToks_trail (isFieldSep_spell e1)]; exact (h2 q hq).1, (h2 q hq).2⟩, h3, h4⟩
  | keep e1 e2 e3 _ ih =>
    intro hp
    obtain ⟨l, h1, h2, h3, h4⟩ := ih (List.pairwise_cons.1 hp).2
    refine ⟨l, .keep e1 e2 e3 h1, fun q hq => ⟨by rw [litToks_trail (isFieldSep_spell e1)]; exact (h2 q hq).1, (h2 q hq).2⟩, h3, fun u hu => ?_⟩
    rcases List.mem_cons.1 hu with rfl | hu
    · exact .inl (e2.fieldSep e1)
    · exact h4 u hu
  | litRaw h => exact absurd hl h
  | keepRaw h => exact absurd hl h

/-! ### The theorem -/

theorem asked_option {tree : Node} {p : Nat} (h : Asked c tree p) : NlOpt c := by
  have num : ∀ {o : NOpt}, c.num o ≠ none → (∀ n, Spec.asksLines o n = true) → NlOpt c := by
    intro o h h'
    obtain ⟨n, hn⟩ := Option.ne_none_iff_exists'.1 h
    exact .inl ⟨o, n, hn, h' n⟩
  have one : ∀ {o : NOpt}, c.num o = some 1 → NlOpt c := fun {o} h => .inl ⟨o, 1, h, by cases o <;> rfl⟩
  obtain ⟨tag, _, _, _, _, _, _, ⟨g, _, h⟩ | ⟨i, item, _, _, h⟩⟩ := h
  · rcases h with ⟨o, _, _, _, h, _⟩ | ⟨_, _, h⟩ | ⟨_, _, h⟩ | ⟨_, ⟨_, h⟩ | ⟨_, h⟩⟩
    · exact one h
    · exact num h fun _ => rfl
    · exact num h fun _ => rfl
    · exact one h
    · exact .inl ⟨_, 2, h, rfl⟩
  · unfold ItemAsks at h
    split at h
    · exact num h.2 fun _ => rfl
    · exact one h.2
    · exact num h fun _ => rfl
    · rcases h with h | ⟨_, _, h, _⟩
      · exact one h
      · exact .inr (.inr (.inr h))
    · exact num h.1 fun _ => rfl
    · exact h.elim

/-- In the output a token begins a line only where an option asks for it. -/
theorem format_breaks {src out : Str} {toks : List Token} (hh : BlankHints c) (ha : AllowGap c False) (hl : c.lineRange = none)
    (hf : format c src = .ok out) (ht : toksOf src = some (toks ++ [.eof])) (hk : KeepsApart c toks)
    (hs : ∀ x, .sheBang x ∉ toks) :
    ∃ tree' ts', parseLua out = some tree' ∧ lexLua out = some ts' ∧ ∀ t ∈ ts', t.tok ≠ .eof → isFieldSep t.tok = false →
      BeginsLine out t.l → Asked c tree' t.l ∨ c.bool .writeNewlineAtMultilineTable = some true ∧ t.tok = .openCurly := by
  obtain ⟨tree, hp, hE, hB⟩ := format_asks hl hf
  obtain ⟨ts, e, os, es, es', h1, h2, hO, hos, h3, _, _, _, h7, _⟩ := tree_elems hh (.inl ⟨rfl, hl⟩) hp (hE.loose none)
  have htoks : toks = tokensOf es := by
    rw [toksOf, h1] at ht
    simp [h2, h3] at ht
    exact ht.symm
  subst htoks
  obtain ⟨_, _, h9⟩ := outs_pair hp h1 h2 hO.lits (h7 hk).lex rfl
  -- the places where something is asked for are those of literals
  have hlit : ∀ p, Asked c tree p → ∃ u ∈ litToks (tree.items c) (ts ++ [e]), u.l = p := by
    intro p hp
    obtain ⟨p', ⟨t, t', h, e1, _⟩, _⟩ := chunk_ask h9 hp
    exact ⟨t, h.2, e1.symm⟩
  have hT := lexFrom_tilesR 0 src _ h1
  have hend := tiles_end h2 (tilesR_tiles hT)
  rw [Nat.zero_add] at hend
  obtain ⟨toks', e', g1, g2, g3⟩ := parseLua_tile c hp
  rw [h1] at g1
  obtain ⟨rfl, rfl⟩ : ts = toks' ∧ e = e' := by
    have := List.append_inj' (Option.some.inj g1) rfl
    exact ⟨this.1, List.cons.inj this.2 |>.1⟩
  have hpw := tiles_pairwise hT
  have hb := hB (fun o => match o with
    | some p => Asked c tree p ∨ p = src.length ∧ c.bool .writeNewlineAtEof = some true
    | none => c.bool .writeNewlineAtMultilineTable = some true) (fun h => h)
    (chunk_allows h9 (fun p hp => .inl hp) (fun h => .inr ⟨rfl, h⟩))
  obtain ⟨ms, hE', hms⟩ := mid_marks hh ha rfl (Pos := Asked c tree) (E := src.length) (fun p h => asked_option h)
    (fun p h => h.imp id fun h => ⟨h.1, .inr (.inl h.2)⟩) (fun h => h) hb (p := none) (pre := []) (s := src) (g3 hend) rfl rfl hT ⟨e, rfl⟩
    (fun t hm => ⟨lexFrom_tokOk 0 src _ h1 t hm, fun x hx => by
      rcases List.mem_append.1 hm with hm | hm
      · exact hs x (by rw [← h3, ← hx]; exact List.mem_map_of_mem hm)
      · rw [List.mem_singleton.1 hm, h2] at hx; cases hx⟩)
    (items_hintOk hh ha.hint tree) (chunk_tag h9) (fun h => by cases h) (fun ⟨a, w, e, _⟩ => by
      simp at e) (fun p hp _ => hlit p hp) (fun t hm hle => by
      rcases List.mem_append.1 hm with hm | hm
      · have := (List.pairwise_append.1 hpw).2.2 t hm e List.mem_cons_self
        omega
      · rw [List.mem_singleton.1 hm, h2])
  obtain ⟨ts2, e2, os2, es2, es2', k1, k2, kO, _, k3, _, _, _, k7, _⟩ := tree_elems hh (.inl ⟨rfl, hl⟩) hp hE'
  rw [h1] at k1
  obtain ⟨rfl, rfl⟩ : ts = ts2 ∧ e = e2 := by
    have := List.append_inj' (Option.some.inj k1) rfl
    exact ⟨this.1, List.cons.inj this.2 |>.1⟩
  rw [h3] at k3
  rw [k3] at hk
  obtain ⟨l, hO', l1, l2, l3⟩ := outs_paired hl kO hpw
  obtain ⟨tree', m1, m2⟩ := outs_pair hp h1 h2 hO' (k7 hk).lex rfl
  refine ⟨tree', _, m1, (k7 hk).lex, fun t' ht' hne hsep hbeg => ?_⟩
  rcases List.mem_append.1 ht' with ht' | ht'
  · obtain ⟨t, hpair⟩ := (l3 t' ht').resolve_left (by rw [hsep]; decide)
    obtain ⟨q1, q2, q3⟩ := l1 _ hpair
    rcases hms t q1 with (hg | hg | ⟨hg, hc⟩) | hg
    · obtain ⟨p', ⟨u, u', ⟨_, hu⟩, e1, e2⟩, hA⟩ := chunk_ask m2 hg
      have : t' = u' := l2 _ hpair _ hu e1
      subst this
      rw [e2] at hA
      exact .inl hA
    · exfalso
      simp only [hg] at q2
      rcases q2 with q2 | ⟨s, q2, _⟩ | ⟨q2, _⟩
      · exact hne q2
      · cases q2
      · cases q2
    · simp only [hc] at q2
      rcases q2 with q2 | ⟨s, q2, _⟩ | ⟨q2, _⟩
      · exact .inr ⟨hg, q2⟩
      · cases q2
      · cases q2
    · exact absurd hbeg (q3 _ hg rfl)
  · exact absurd (by rw [List.mem_singleton.1 ht']) hne

end Luafmt
