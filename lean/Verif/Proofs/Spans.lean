import Verif.Proofs.LiveTree

/-
The spans of the parts of a construct lie inside its span, one after the other; what this means for the range that
is formatted.
-/
namespace Luafmt

mutual
/-- The spans in a tree are nested. -/
def Node.Nested : Node → Prop
  | .mk _ span _ kids => span.l ≤ span.r ∧ Node.NestedAll span.l span.r kids
/-- The trees follow one another inside an interval. -/
def Node.NestedAll : Nat → Nat → List Node → Prop
  | p, r, [] => p ≤ r
  | p, r, n :: ns => p ≤ n.span.l ∧ n.Nested ∧ Node.NestedAll n.span.r r ns
end

theorem Node.Nested.le : ∀ {n : Node}, n.Nested → n.span.l ≤ n.span.r
  | .mk _ _ _ _, h => h.1

theorem Node.NestedAll.le : ∀ {ns : List Node} {p r : Nat}, Node.NestedAll p r ns → p ≤ r
  | [], _, _, h => h
  | n :: _, _, _, h => Nat.le_trans h.1 (Nat.le_trans h.2.1.le (Node.NestedAll.le h.2.2))

theorem Node.NestedAll.widen : ∀ {ns : List Node} {p q r : Nat}, q ≤ p → Node.NestedAll p r ns → Node.NestedAll q r ns
  | [], _, _, _, h, hn => Nat.le_trans h hn
  | _ :: _, _, _, _, h, hn => ⟨Nat.le_trans h hn.1, hn.2⟩

/-- The part is a token or its spans are nested. -/
def Part.Nested : Part → Prop
  | .tok _ => True
  | .node n => n.Nested

theorem GapAt.le {env : Env} {l r : Nat} (h : GapAt env ⟨l, r⟩) : l ≤ r := by
  obtain ⟨a, g, b, _, e, _⟩ := h
  injection e with e1 e2
  omega

theorem parts_nested {env : Env} {qs : List Part} : ∀ {p : Nat}, PartsFrom env p qs → (∀ q ∈ qs, q.Nested) →
    Node.NestedAll p (endParts p qs) (qs.filterMap Part.node?) := by
  induction qs with
  | nil => intro p _ _; exact Nat.le_refl _
  | cons q qs ih =>
    intro p h hq
    obtain ⟨h1, h2, _, _, h5⟩ := h
    have hl := h1.le
    have i := ih h5 (fun x hx => hq x (List.mem_cons_of_mem _ hx))
    have hn := hq q List.mem_cons_self
    cases q with
    | tok t => exact i.widen (Nat.le_trans hl h2)
    | node n => exact ⟨hl, hn, i⟩

theorem buildNode_parts (tag : Tag) (q : Part) (qs : List Part) (p : Nat) : ∃ t ls, buildNode tag (q :: qs) =
    .mk t ⟨q.span.l, endParts p (q :: qs)⟩ ls ((q :: qs).filterMap Part.node?) := by
  have hlast := endParts_last p (q :: qs) (by simp)
  unfold buildNode
  simp only [List.head?_cons, Option.map_some, Option.getD_some, hlast]
  split
  · exact ⟨_, _, rfl⟩
  · split <;> exact ⟨_, _, rfl⟩

theorem buildNode_nested {env : Env} {tag : Tag} {q : Part} {qs : List Part} {p : Nat} (h : PartsFrom env p (q :: qs))
    (hq : ∀ x ∈ q :: qs, x.Nested) : (buildNode tag (q :: qs)).Nested := by
  obtain ⟨t, ls, e⟩ := buildNode_parts tag q qs p
  rw [e]
  have hb := partsFrom_bounds h.2.2.1 h.2.2.2.2
  have h2 := h.2.1
  refine ⟨by simp only [endParts]; omega, ?_⟩
  obtain ⟨h1, h2', h3, h4, h5⟩ := h
  have : PartsFrom env q.span.l (q :: qs) := ⟨.here (by omega), h2', h3, h4, h5⟩
  exact parts_nested this hq

mutual
theorem place_nested (env : Env) : ∀ (x : Cst TokL), ((∃ t, strip x = .tok t) ∨ ∃ n, Derives n (strip x)) →
    (∀ t ∈ x.yield, TokEnd t.tok) → ∀ (p : Nat) (rest : List TokL), RowFrom env p (x.yield ++ rest) → (placeC x).Nested
  | .tok t, _, _, p, rest, h => trivial
  | .node tag xs, h, ht, p, rest, hr => by
    rcases h with ⟨t, h⟩ | ⟨n, h⟩
    · simp [strip] at h
    · have hne : xs ≠ [] := by
        obtain ⟨⟨t, ts, e1, _⟩, _⟩ := place_good Config.default (.node tag xs) (.inr ⟨n, h⟩)
        rintro rfl
        simp [Cst.yield, Cst.yields] at e1
      have hall : ∀ y ∈ stripAll xs, (∃ t, y = .tok t) ∨ ∃ n, Derives n y := by
        rcases derives_inv h with ⟨a, tag', ss, cs, e, hp, hm⟩ | ⟨a, tag', t, e, hl⟩
        · simp only [strip, Cst.node.injEq] at e
          rw [e.2]
          exact matches_all hm
        · simp only [strip, Cst.node.injEq] at e
          rw [e.2]
          intro y hy
          exact .inl ⟨t, by simpa using hy⟩
      simp only [Cst.yield] at ht hr
      obtain ⟨k1, k2⟩ := place_lives env xs hall ht p rest hr
      have k3 := place_nesteds env xs hall ht p rest hr
      obtain ⟨x, ys, rfl⟩ := List.exists_cons_of_ne_nil hne
      exact buildNode_nested (tag := tag) k1 k3
theorem place_nesteds (env : Env) : ∀ (xs : List (Cst TokL)),
    (∀ y ∈ stripAll xs, (∃ t, y = .tok t) ∨ ∃ n, Derives n y) → (∀ t ∈ Cst.yields xs, TokEnd t.tok) →
    ∀ (p : Nat) (rest : List TokL), RowFrom env p (Cst.yields xs ++ rest) → ∀ q ∈ placeAll xs, q.Nested
  | [], _, _, p, rest, h => fun _ h => nomatch h
  | x :: xs, hy, ht, p, rest, h => by
    simp only [stripAll] at hy
    simp only [Cst.yields, List.append_assoc] at h
    simp only [Cst.yields] at ht
    obtain ⟨h1, h2, h3, h4, h5⟩ := place_live env x (hy _ List.mem_cons_self) (fun t hm => ht t (List.mem_append_left _ hm)) p _ h
    have k := place_nesteds env xs (fun z hz => hy z (List.mem_cons_of_mem _ hz))
      (fun t hm => ht t (List.mem_append_right _ hm)) _ _ h5
    intro q hq
    rcases List.mem_cons.mp hq with rfl | hq
    · exact place_nested env x (hy _ List.mem_cons_self) (fun t hm => ht t (List.mem_append_left _ hm)) p _ h
    · exact k q hq
end

theorem attach_nested (env : Env) {n : NT} (hn : n ≠ .fieldList) {x : C} (h : Derives n x) {ps : List TokL} {rest : List Token}
    (hp : ps.map (·.tok) = x.yield ++ rest) {p : Nat} (hr : RowFrom env p ps) (ht : ∀ t ∈ ps, t.tok ≠ .eof → TokEnd t.tok)
    (hx : ∀ t ∈ x.yield, t ≠ .eof) : (placeNode (attach x ps).1).Nested := by
  obtain ⟨h1, h2, h3⟩ := attach_ok x ps rest hp
  obtain ⟨_, _, _, h4, _⟩ := attach_good Config.default hn h hp
  have hy : ∀ t ∈ (attach x ps).1.yield, TokEnd t.tok := by
    intro t hm
    refine ht t (by rw [h2]; exact List.mem_append_left _ hm) ?_
    refine hx _ ?_
    have e : (attach x ps).1.yield.map (·.tok) = x.yield := by
      have := hp
      rw [h2, List.map_append, h3] at this
      exact List.append_cancel_right this
    rw [← e]
    exact List.mem_map_of_mem hm
  rw [h2] at hr
  have k := place_nested env (attach x ps).1 (.inr ⟨n, by rw [h1]; exact h⟩) hy p _ hr
  rw [h4] at k
  exact k

/-- What the tree of a parsed source looks like at the top. -/
theorem parseLua_nested {src : Str} {tree : Node} (h : parseLua src = some tree) :
    ∃ tag span locs kids, tree = .mk tag span locs kids ∧ (tag = .chunk ∨ tag = .sheBangChunk) ∧
      Node.NestedAll 0 src.length kids := by
  have hlive := parseLua_live h none
  unfold parseLua at h
  simp only [Option.bind_eq_bind, Option.bind_eq_some_iff, Option.some.injEq, Prod.exists] at h
  obtain ⟨toks, hlex, sb, b, hc, rfl⟩ := h
  obtain ⟨h1, h2, h3⟩ := parseChunk_sound hc
  have hT := lexFrom_tilesR 0 src _ hlex
  have hrow : RowFrom ⟨src, none⟩ 0 toks := rowFrom_tiles (env := ⟨src, none⟩) (pre := []) (s := src) rfl hT
  have hend : ∀ t ∈ toks, t.tok ≠ .eof → TokEnd t.tok := by
    intro t ht hne
    rcases lexFrom_tokOk 0 src _ hlex t ht with h | ⟨n, h⟩
    · exact absurd h hne
    · exact reads_end h
  have hsb : ∀ x, sb = some x → Derives .sheBangLine x := by
    intro x hx
    obtain ⟨s, rfl⟩ := h1 x hx
    exact .leaf rfl
  have hsplit : ∃ us e, toks = us ++ [e] ∧ us.map (·.tok) = Cst.yields (sb.toList ++ b.toList) ∧ e.tok = .eof := by
    have := List.map_eq_append_iff.mp h3
    obtain ⟨us, vs, rfl, e1, e2⟩ := this
    obtain ⟨e, rfl, e3⟩ : ∃ e, vs = [e] ∧ e.tok = .eof := by
      cases vs with
      | nil => simp at e2
      | cons v vs =>
        cases vs with
        | nil => exact ⟨v, rfl, by simpa using e2⟩
        | cons w ws => simp at e2
    exact ⟨us, e, rfl, e1, e3⟩
  obtain ⟨us, e, rfl, he1, he2⟩ := hsplit
  obtain ⟨te1, te2⟩ := tiles_eof hT
  have hne : ∀ t ∈ Cst.yields (sb.toList ++ b.toList), t ≠ .eof := by
    intro t ht
    rw [← he1] at ht
    obtain ⟨u, hu, rfl⟩ := List.mem_map.mp ht
    exact te1 u hu
  cases sb with
  | none =>
    cases b with
    | none => exact ⟨_, _, _, _, rfl, .inl rfl, Nat.zero_le _, ⟨Nat.le_refl _, Nat.le_refl _⟩, Nat.le_refl _⟩
    | some x =>
      simp only [Option.toList_none, Option.toList_some, List.nil_append, Cst.yields, List.append_nil] at h3
      obtain ⟨m, e, m1, m2, m3, m4, m5, m6, m7⟩ := attach_live ⟨src, none⟩ (by decide) (h2 _ rfl) h3 hrow hend (fun t ht => hne t (by simp [Cst.yields, ht]))
      have k := attach_nested ⟨src, none⟩ (by decide) (h2 _ rfl) h3 hrow hend (fun t ht => hne t (by simp [Cst.yields, ht]))
      rw [e] at k
      simp only [placeChunk, e]
      exact ⟨_, _, _, _, rfl, .inl rfl, Nat.zero_le _, k, m3⟩
  | some s =>
    have hs := hsb s rfl
    cases b with
    | none =>
      simp only [Option.toList_none, Option.toList_some, List.append_nil, Cst.yields] at h3
      obtain ⟨m, e, m1, m2, m3, m4, m5, m6, m7⟩ := attach_live ⟨src, none⟩ (by decide) hs h3 hrow hend (fun t ht => hne t (by simp [Cst.yields, ht]))
      have k := attach_nested ⟨src, none⟩ (by decide) hs h3 hrow hend (fun t ht => hne t (by simp [Cst.yields, ht]))
      rw [e] at k
      simp only [placeChunk, e]
      exact ⟨_, _, _, _, rfl, .inl rfl, Nat.zero_le _, k, m3⟩
    | some x =>
      simp only [Option.toList_some, Cst.yields, List.append_nil, List.singleton_append, List.append_assoc] at h3
      obtain ⟨m, e, m1, m2, m3, m4, m5, m6, m7⟩ := attach_live ⟨src, none⟩ (by decide) hs h3 hrow hend (fun t ht => hne t (by simp [Cst.yields, ht]))
      have k := attach_nested ⟨src, none⟩ (by decide) hs h3 hrow hend (fun t ht => hne t (by simp [Cst.yields, ht]))
      obtain ⟨m', e', k1, k2, k3, k4, k5, k6, k7⟩ := attach_live ⟨src, none⟩ (by decide) (h2 _ rfl) m6 m5
        (fun t ht => hend t (m7 t ht)) (fun t ht => hne t (by simp [Cst.yields, ht]))
      have k' := attach_nested ⟨src, none⟩ (by decide) (h2 _ rfl) m6 m5
        (fun t ht => hend t (m7 t ht)) (fun t ht => hne t (by simp [Cst.yields, ht]))
      rw [e] at k
      rw [e'] at k'
      simp only [placeChunk, e, e']
      exact ⟨_, _, _, _, rfl, .inr rfl, Nat.zero_le _, k, k1.le, k', k3⟩

/-! ### Growing the range -/

/-- The result of growing `(l, r)` by something that lies in `[a, b]`. -/
def GrowOk (a b l r : Nat) (pr : Option (Nat × Nat)) : Prop :=
  ∃ l' r', pr = some (l', r') ∧ l' ≤ l ∧ r ≤ r' ∧ (l ≤ l' ∨ a ≤ l') ∧ (r' ≤ r ∨ r' ≤ b) ∧
    (r ≤ a ∨ b ≤ l → l' = l ∧ r' = r)

theorem GrowOk.same (a b l r : Nat) : GrowOk a b l r (some (l, r)) :=
  ⟨l, r, rfl, Nat.le_refl _, Nat.le_refl _, .inl (Nat.le_refl _), .inl (Nat.le_refl _), fun _ => ⟨rfl, rfl⟩⟩

theorem updatePosRange_ok (level : Nat) (s : Loc) (l r : Nat) : GrowOk s.l s.r l r (updatePosRange level s (some (l, r))) := by
  unfold updatePosRange
  split
  · simp only
    split
    · exact ⟨_, _, rfl, by omega, by omega, by omega, by omega, by omega⟩
    · exact .same _ _ _ _
  · exact .same _ _ _ _

mutual
theorem growRange_ok : ∀ (n : Node) (level l r : Nat), n.Nested → GrowOk n.span.l n.span.r l r (growRange level n (some (l, r)))
  | .mk tag span locs kids, level, l, r, h => by
    have h1 : GrowOk span.l span.r l r (if tag.updatesRange = true then updatePosRange level span (some (l, r)) else some (l, r)) := by
      split
      · exact updatePosRange_ok level span l r
      · exact .same _ _ _ _
    obtain ⟨l', r', e, b1, b2, b3, b4, b5⟩ := h1
    show GrowOk span.l span.r l r (growRange level (.mk tag span locs kids) (some (l, r)))
    rw [growRange, e]
    obtain ⟨l2, r2, e2, c1, c2, c3, c4, c5⟩ := growRangeAll_ok kids (tag.childLevel level) l' r' _ _ h.2
    have := h.1
    refine ⟨l2, r2, e2, by omega, by omega, by omega, by omega, fun hd => ?_⟩
    have := b5 hd
    omega
theorem growRangeAll_ok : ∀ (ns : List Node) (level l r a b : Nat), Node.NestedAll a b ns →
    GrowOk a b l r (growRangeAll level ns (some (l, r)))
  | [], level, l, r, a, b, h => .same _ _ _ _
  | n :: ns, level, l, r, a, b, h => by
    obtain ⟨l', r', e, b1, b2, b3, b4, b5⟩ := growRange_ok n level l r h.2.1
    rw [growRangeAll, e]
    obtain ⟨l2, r2, e2, c1, c2, c3, c4, c5⟩ := growRangeAll_ok ns level l' r' _ _ h.2.2
    have h1 := h.1
    have h2 := h.2.1.le
    have h3 := h.2.2.le
    refine ⟨l2, r2, e2, by omega, by omega, by omega, by omega, fun hd => ?_⟩
    have := b5 (by omega)
    have := c5 (by omega)
    omega
end

/-- Inside the range or outside of it. -/
def Settled (s : Loc) (l r : Nat) : Prop := (l ≤ s.l ∧ s.r ≤ r) ∨ s.r ≤ l ∨ r ≤ s.l

theorem growRange_settled (n : Node) (l r : Nat) (hn : n.Nested) (hu : n.tag.updatesRange = true) :
    ∃ l' r', growRange 1 n (some (l, r)) = some (l', r') ∧ Settled n.span l' r' := by
  obtain ⟨tag, span, locs, kids⟩ := n
  have hu' : tag.updatesRange = true := hu
  rw [growRange, hu']
  have h0 := hn.1
  have : ∃ l' r', updatePosRange 1 span (some (l, r)) = some (l', r') ∧ Settled span l' r' := by
    simp only [updatePosRange, if_true, Settled]
    split
    · exact ⟨_, _, rfl, by omega⟩
    · exact ⟨_, _, rfl, by omega⟩
  obtain ⟨l', r', e, hs⟩ := this
  simp only [if_true, e]
  obtain ⟨l2, r2, e2, c1, c2, c3, c4, c5⟩ := growRangeAll_ok kids (tag.childLevel 1) l' r' _ _ hn.2
  refine ⟨l2, r2, e2, ?_⟩
  show Settled span l2 r2
  unfold Settled at hs ⊢
  rcases hs with hs | hs | hs
  · omega
  · have := c5 (by omega); omega
  · have := c5 (by omega); omega

/-- What follows does not unsettle. -/
theorem Settled.later {s : Loc} {a b l r : Nat} {pr : Option (Nat × Nat)} (h : Settled s l r) (hs : s.l ≤ s.r) (ha : s.r ≤ a)
    (hg : GrowOk a b l r pr) : ∃ l' r', pr = some (l', r') ∧ Settled s l' r' := by
  obtain ⟨l', r', e, b1, b2, b3, b4, b5⟩ := hg
  refine ⟨l', r', e, ?_⟩
  unfold Settled at h ⊢
  rcases h with h | h | h
  · omega
  · omega
  · have := b5 (by omega); omega

theorem growRangeAll_settled : ∀ (ns : List Node) (l r a b : Nat), Node.NestedAll a b ns →
    ∃ l' r', growRangeAll 1 ns (some (l, r)) = some (l', r') ∧ ∀ n ∈ ns, n.tag.updatesRange = true → Settled n.span l' r'
  | [], l, r, _, _, _ => ⟨l, r, rfl, fun _ h => nomatch h⟩
  | n :: ns, l, r, a, b, h => by
    obtain ⟨l1, r1, e1, _⟩ := growRange_ok n 1 l r h.2.1
    obtain ⟨l', r', e, hs⟩ := growRangeAll_settled ns l1 r1 _ _ h.2.2
    refine ⟨l', r', by rw [growRangeAll, e1, e], ?_⟩
    intro m hm hu
    rcases List.mem_cons.mp hm with rfl | hm
    · obtain ⟨l2, r2, e2, hs2⟩ := growRange_settled m l r h.2.1 hu
      rw [e1] at e2
      cases e2
      obtain ⟨l3, r3, e3, hs3⟩ := hs2.later h.2.1.le (Nat.le_refl _) (growRangeAll_ok ns 1 l1 r1 _ _ h.2.2)
      rw [e] at e3
      cases e3
      exact hs3
    · exact hs m hm hu

end Luafmt
