import Verif.Proofs.Laid
import Verif.Props.Printing
import Verif.Spec.Selection

/-
What is printed for the parts of a program that lie outside the range.
-/
namespace Luafmt
open Spec

/-- The source from `a` to `b` has been printed: `f` has become `f'`. It is copied if it is out of range. -/
structure Piece (env : Env) (a b : Nat) (f f' : Str) : Prop where
  le : a ≤ b
  len : b ≤ env.buf.length
  copy : outOfRange env.posRange ⟨a, b⟩ = true → f' = f ++ slice env.buf a b
  grows : Grows f f'

theorem outOfRange_left {pr : Option (Nat × Nat)} {a m b : Nat} (h1 : a ≤ m) (h2 : m ≤ b) (h : outOfRange pr ⟨a, b⟩ = true) :
    outOfRange pr ⟨a, m⟩ = true ∧ outOfRange pr ⟨m, b⟩ = true := by
  cases pr with
  | none => cases h
  | some p =>
    simp only [outOfRange, Bool.or_eq_true, decide_eq_true_eq] at h ⊢
    omega

theorem Piece.trans {env : Env} {a m b : Nat} {f g h : Str} (p : Piece env a m f g) (q : Piece env m b g h) : Piece env a b f h := by
  refine ⟨Nat.le_trans p.le q.le, q.len, fun ho => ?_, p.grows.trans q.grows⟩
  obtain ⟨o1, o2⟩ := outOfRange_left p.le q.le ho
  rw [q.copy o2, p.copy o1, List.append_assoc, slice_append p.le q.le q.len]

theorem Piece.copied {env : Env} {a b : Nat} (f : Str) (h1 : a ≤ b) (h2 : b ≤ env.buf.length) : Piece env a b f (f ++ slice env.buf a b) :=
  ⟨h1, h2, fun _ => rfl, .append _ _⟩

theorem Piece.here {env : Env} {a : Nat} (f : Str) (h : a ≤ env.buf.length) : Piece env a a f f :=
  ⟨Nat.le_refl _, h, fun _ => by rw [slice_same, List.append_nil], .refl _⟩

/-- The source from `a` to `b` has been printed, with a seam at `q`. -/
def Cut (env : Env) (q a b : Nat) (f f' : Str) : Prop := ∃ g, Piece env a q f g ∧ Piece env q b g f'

/-- Numbers between `a` and `b` in ascending order. -/
def Between : List Nat → Nat → Nat → Prop
  | [], a, b => a ≤ b
  | q :: qs, a, b => a ≤ q ∧ Between qs q b

/-- The source from `a` to `b` has been printed, with seams at `qs`. -/
def Cuts (env : Env) : List Nat → Nat → Nat → Str → Str → Prop
  | [], a, b, f, f' => Piece env a b f f'
  | q :: qs, a, b, f, f' => ∃ g, Piece env a q f g ∧ Cuts env qs q b g f'

theorem Between.le : ∀ {qs : List Nat} {a b : Nat}, Between qs a b → a ≤ b
  | [], _, _, h => h
  | _ :: _, _, _, h => Nat.le_trans h.1 h.2.le

theorem Between.mem : ∀ {qs : List Nat} {a b q : Nat}, Between qs a b → q ∈ qs → a ≤ q ∧ q ≤ b
  | x :: qs, a, b, q, h, hq => by
    rcases List.mem_cons.mp hq with rfl | hq
    · exact ⟨h.1, h.2.le⟩
    · exact ⟨Nat.le_trans h.1 (Between.mem h.2 hq).1, (Between.mem h.2 hq).2⟩

theorem Between.after : ∀ {qs : List Nat} {a m b : Nat}, a ≤ m → Between qs m b → Between qs a b
  | [], _, _, _, h, h' => Nat.le_trans h h'
  | _ :: _, _, _, _, h, h' => ⟨Nat.le_trans h h'.1, h'.2⟩

theorem Between.append : ∀ {qs rs : List Nat} {a m b : Nat}, Between qs a m → Between rs m b → Between (qs ++ rs) a b
  | [], _, _, _, _, h, h' => .after h h'
  | _ :: _, _, _, _, _, h, h' => ⟨h.1, .append h.2 h'⟩

theorem Cuts.piece {env : Env} : ∀ {qs : List Nat} {a b : Nat} {f f' : Str}, Cuts env qs a b f f' → Piece env a b f f'
  | [], _, _, _, _, h => h
  | _ :: _, _, _, _, _, ⟨_, h1, h2⟩ => h1.trans h2.piece

theorem Cuts.between {env : Env} : ∀ {qs : List Nat} {a b : Nat} {f f' : Str}, Cuts env qs a b f f' → Between qs a b
  | [], _, _, _, _, h => h.le
  | _ :: _, _, _, _, _, ⟨_, h1, h2⟩ => ⟨h1.le, h2.between⟩

theorem Cuts.after {env : Env} : ∀ {qs : List Nat} {a m b : Nat} {f g h : Str}, Piece env a m f g → Cuts env qs m b g h → Cuts env qs a b f h
  | [], _, _, _, _, _, _, p, c => p.trans c
  | _ :: _, _, _, _, _, _, _, p, ⟨x, h1, h2⟩ => ⟨x, p.trans h1, h2⟩

theorem Cuts.append {env : Env} : ∀ {qs rs : List Nat} {a m b : Nat} {f g h : Str}, Cuts env qs a m f g → Cuts env rs m b g h →
    Cuts env (qs ++ rs) a b f h
  | [], _, _, _, _, _, _, _, c, d => .after c d
  | _ :: _, _, _, _, _, _, _, _, ⟨x, h1, h2⟩, d => ⟨x, h1, .append h2 d⟩

theorem Cuts.before {env : Env} {qs : List Nat} {a m b : Nat} {f g h : Str} (c : Cuts env qs a m f g) (p : Piece env m b g h) :
    Cuts env qs a b f h := by
  have := Cuts.append c (rs := []) p
  rwa [List.append_nil] at this

theorem Cuts.copied {env : Env} : ∀ {qs : List Nat} {a b : Nat} (f : Str), Between qs a b → b ≤ env.buf.length →
    Cuts env qs a b f (f ++ slice env.buf a b)
  | [], _, _, f, h1, h2 => Piece.copied f h1 h2
  | q :: qs, a, b, f, h1, h2 => ⟨f ++ slice env.buf a q, .copied f h1.1 (Nat.le_trans h1.2.le h2), by
    rw [← slice_append h1.1 h1.2.le h2, ← List.append_assoc]; exact .copied _ h1.2 h2⟩

theorem Cuts.ends {env : Env} {a b : Nat} {f f' : Str} (p : Piece env a b f f') : Cuts env [a, b] a b f f' :=
  ⟨f, .here f (Nat.le_trans p.le p.len), f', p, .here f' p.len⟩

/-- One of the seams. -/
theorem Cuts.one {env : Env} {q : Nat} : ∀ {qs : List Nat} {a b : Nat} {f f' : Str}, Cuts env qs a b f f' → q ∈ qs → Cut env q a b f f'
  | x :: qs, a, b, f, f', ⟨g, h1, h2⟩, hq => by
    rcases List.mem_cons.mp hq with rfl | hq
    · exact ⟨g, h1, h2.piece⟩
    · obtain ⟨g', h3, h4⟩ := h2.one hq
      exact ⟨g', h1.trans h3, h4⟩

/-- Two of the seams. -/
theorem Cuts.two {env : Env} {p q : Nat} (hpq : p ≤ q) : ∀ {qs : List Nat} {a b : Nat} {f f' : Str}, Cuts env qs a b f f' → p ∈ qs →
    q ∈ qs → ∃ g, Piece env a p f g ∧ Cut env q p b g f'
  | x :: qs, a, b, f, f', ⟨g, h1, h2⟩, hp, hq => by
    rcases List.mem_cons.mp hp with hp | hp
    · subst hp
      refine ⟨g, h1, ?_⟩
      rcases List.mem_cons.mp hq with rfl | hq
      · exact ⟨g, .here g h1.len, h2.piece⟩
      · exact h2.one hq
    · rcases List.mem_cons.mp hq with hq | hq
      · have := (h2.between.mem hp).1
        have : p = x := by omega
        subst this
        subst hq
        exact ⟨g, h1, g, .here g h1.len, h2.piece⟩
      · obtain ⟨g', h3, h4⟩ := h2.two hpq hp hq
        exact ⟨g', h1.trans h3, h4⟩

/-! ### Writers -/

theorem locW_text {env : Env} {a b : Nat} (h1 : a ≤ b) (h2 : b ≤ env.buf.length) {s1 s2 : St}
    (h : locW env ⟨a, b⟩ s1 = .ok s2) : s2.f = s1.f ++ slice env.buf a b := by
  simp only [locW, substr_cut h1 h2, Res.bind_ok, Res.pure_eq] at h
  cases h
  rfl

theorem commentHint_piece {env : Env} {c : Config} {lvl : Int} {a b : Nat} (h1 : a ≤ b) (h2 : b ≤ env.buf.length) {x f g : Str}
    (h : commentHint env c lvl ⟨a, b⟩ x f = .ok g) : Piece env a b f g := by
  refine ⟨h1, h2, fun ho => ?_, ?_⟩
  · unfold commentHint at h
    rw [if_pos ho, substr_cut h1 h2] at h
    simp only [Res.bind_ok, Res.pure_eq] at h
    cases h
    rfl
  · obtain ⟨s, rfl⟩ := commentHint_append h
    exact .append _ _

theorem hintW_piece {env : Env} {c : Config} {a b : Nat} (h1 : a ≤ b) (h2 : b ≤ env.buf.length) {x : Str} {s1 s2 : St}
    (h : hintW env c ⟨a, b⟩ x s1 = .ok s2) : Piece env a b s1.f s2.f := by
  simp only [hintW, Res.bind_eq_ok, Res.pure_eq] at h
  obtain ⟨f, hf, h⟩ := h
  cases h
  exact commentHint_piece h1 h2 hf

theorem nlW_grows {env : Env} {c : Config} {b : Bool} {loc : Loc} {x : Str} {s1 s2 : St} (h : nlW env c b loc x s1 = .ok s2) :
    Grows s1.f s2.f := by
  simp only [nlW, Res.bind_eq_ok, Res.pure_eq] at h
  obtain ⟨f, hf, h⟩ := h
  cases h
  exact ifNewLine_grows hf

theorem nlW_false {env : Env} {c : Config} {loc : Loc} {x : Str} {s : St} : nlW env c false loc x s = hintW env c loc x s := by
  simp [nlW, hintW, ifNewLine]

theorem writer_grows (env : Env) (c : Config) (over : Option Bool) (m : Node) {s1 s2 : St}
    (h : (mkR env (annotate c over m)).w c s1 = .ok s2) : Grows s1.f s2.f :=
  (ctx_ok _ c _ c s1 s2 (.refl c) h).2.grows

theorem annotateTag_stmt {c : Config} {over : Option Bool} {t : Tag} {ks : List Node} (h : t.isStmt = true) :
    (annotateTag c over t ks).leafText = t.leafText ∧ (annotateTag c over t ks).checksRange = true := by
  cases t <;> first | (cases h; done) | exact ⟨rfl, rfl⟩

/-- A statement out of range is copied. -/
theorem kid_piece {env : Env} {c : Config} {over : Option Bool} : ∀ {m : Node}, m.Laid env c → m.tag.isStmt = true →
    ∀ {s1 s2 : St}, (mkR env (annotate c over m)).w c s1 = .ok s2 → Piece env m.span.l m.span.r s1.f s2.f
  | .mk tag span locs kids, hl, ht, s1, s2, h => by
    have hg := writer_grows env c over _ h
    have hb := hl.basic
    refine ⟨Nat.le_of_lt hb.1, hb.2.1, fun ho => ?_, hg⟩
    obtain ⟨e1, e2⟩ := annotateTag_stmt (c := c) (over := over)
      (ks := annotateAll c (childSingle over tag kids.length) kids) (show tag.isStmt = true from ht)
    simp only [annotate, mkR, writeW] at h
    rw [e1, e2] at h
    cases hx : tag.leafText with
    | some s =>
      simp only [hx, Res.pure_eq] at h
      cases h
      have hr := hl.raw
      simp only [Node.items, itemsOf, hx, rawText, Item.raw, Res.bind_ok, Res.pure_eq, List.append_nil] at hr
      cases hr
      rfl
    | none =>
      simp only [hx, Bool.true_and] at h
      rw [if_pos (show outOfRange env.posRange span = true from ho)] at h
      exact locW_text (Nat.le_of_lt hb.1) hb.2.1 h

/-- The node has seams at `qs`: positions at which its text is cut. -/
def Seams (env : Env) (c : Config) (over : Option Bool) (m : Node) (qs : List Nat) : Prop :=
  Between qs m.span.l m.span.r ∧
    ∀ s1 s2 : St, (mkR env (annotate c over m)).w c s1 = .ok s2 → Cuts env qs m.span.l m.span.r s1.f s2.f

theorem itemGap_piece {env : Env} {c : Config} {a b : Nat} (h1 : a ≤ b) (h2 : b ≤ env.buf.length) {prev : Node} {r : R} {x : Str}
    {s1 s2 : St} {nl : Bool} (h : itemGap env c .statementList prev r ⟨a, b⟩ x s1 = .ok (s2, nl)) : Piece env a b s1.f s2.f := by
  unfold itemGap at h
  split at h
  · simp only [Res.bind_eq_ok, Res.pure_eq] at h
    obtain ⟨s, hs, h⟩ := h
    cases h
    rw [locW_text h1 h2 hs]
    exact .copied _ h1 h2
  · next ho =>
    simp only [Res.bind_eq_ok, Res.pure_eq, Prod.exists] at h
    obtain ⟨s, nl', ha, s', hs, h⟩ := h
    cases h
    have : s = s1 := by
      unfold askNext at ha
      split at ha
      · simp only [needNewline, Res.pure_eq] at ha
        cases ha; rfl
      · cases ha; rfl
    subst this
    exact ⟨h1, h2, fun h => absurd h ho, nlW_grows hs⟩

theorem mkR_node (env : Env) (n : Node) : (mkR env n).node = n := by cases n; rfl

theorem annotate_tag (c : Config) (over : Option Bool) (n : Node) : (annotate c over n).span = n.span := by cases n; rfl

theorem chain_le {env : Env} {c : Config} : ∀ {ns : List Node} {p : Nat} {ls : List Loc} {r : Nat}, Chain p ls ns r → Node.LaidAll env c ns → p ≤ r
  | [], p, [], r, h, _ => Nat.le_of_eq h
  | n :: ns, p, l :: ls, r, h, hl => by
    have := chain_le h.2.2 hl.2
    have := hl.1.basic.1
    have := h.2.1
    omega

theorem chain_bounds {env : Env} {c : Config} {k : Node} : ∀ {ns : List Node} {p : Nat} {ls : List Loc} {r : Nat}, Chain p ls ns r →
    Node.LaidAll env c ns → k ∈ ns → p ≤ k.span.l ∧ k.span.r ≤ r
  | [], _, _, _, _, _, h => nomatch h
  | n :: ns, _, [], _, h, _, _ => h.elim
  | n :: ns, p, l :: ls, r, h, hl, hm => by
    have h1 := chain_le h.2.2 hl.2
    have h2 := h.2.1
    have h3 := hl.1.basic.1
    rcases List.mem_cons.mp hm with rfl | hm
    · exact ⟨h2, h1⟩
    · have := chain_bounds h.2.2 hl.2 hm
      omega

theorem chain_between {Q : Node → List Nat} : ∀ {ns : List Node} {p : Nat} {ls : List Loc} {r : Nat},
    Chain p ls ns r → (∀ k ∈ ns, Between (Q k) k.span.l k.span.r) → Between (ns.flatMap Q) p r
  | [], p, [], r, h, _ => Nat.le_of_eq h
  | n :: ns, p, l :: ls, r, h, hq => by
    obtain ⟨rfl, hp, hc⟩ := h
    rw [List.flatMap_cons]
    exact .append (.after hp (hq n List.mem_cons_self)) (chain_between hc fun k hk => hq k (List.mem_cons_of_mem _ hk))

/-- The rest of a statement list. -/
theorem listRest_cuts {env : Env} {c : Config} {over : Option Bool} {Q : Node → List Nat} : ∀ {ns : List Node} {p : Nat} {ls : List Loc} {r : Nat},
    Chain p ls ns r → Node.LaidAll env c ns → (∀ k ∈ ns, Seams env c over k (Q k)) → r ≤ env.buf.length →
    ∀ {prev : Node} {ind ind' : Bool} {s1 s2 : St},
      listRest env c .statementList prev (ls.zip (mkRs env (annotateAll c over ns))) ind s1 = .ok (s2, ind') →
      Cuts env (ns.flatMap Q) p r s1.f s2.f
  | [], p, [], r, h, _, _, hr, prev, ind, ind', s1, s2, hw => by
    cases h
    simp only [annotateAll, mkRs, List.zip_nil_right, listRest, Res.pure_eq] at hw
    cases hw
    exact .here _ hr
  | n :: ns, p, l :: ls, r, h, hl, ht, hr, prev, ind, ind', s1, s2, hw => by
    obtain ⟨rfl, hp, hc⟩ := h
    have hb := hl.1.basic
    simp only [annotateAll, mkRs, List.zip_cons_cons, listRest, Res.bind_eq_ok, Prod.exists] at hw
    obtain ⟨sa, nl, e1, sb, e2, e3⟩ := hw
    have p1 := itemGap_piece hp (by omega) e1
    rw [List.flatMap_cons]
    exact .append (.after p1 ((ht n List.mem_cons_self).2 _ _ e2))
      (listRest_cuts hc hl.2 (fun k hk => ht k (List.mem_cons_of_mem _ hk)) hr e3)

/-- The seams of the statements of a statement list are seams. -/
theorem list_seams {env : Env} {c : Config} {over : Option Bool} {span : Loc} {locs : List Loc} {kids : List Node}
    {Q : Node → List Nat} (hl : (Node.mk .statementList span locs kids).Laid env c) (hq : ∀ k ∈ kids, Seams env c none k (Q k)) :
    Seams env c over (.mk .statementList span locs kids) (kids.flatMap Q) := by
  obtain ⟨hb, _, hc, _, hlk⟩ := hl
  obtain ⟨hc, ht⟩ := hc rfl
  have hbt := chain_between hc fun k hk => (hq k hk).1
  refine ⟨hbt, ?_⟩
  intro s1 s2 h
  have hw : (mkR env (annotate c over (.mk .statementList span locs kids))).w c s1 =
      (if outOfRange env.posRange span = true then locW env span s1 else
        (plainList env c .statementList span.l (locs.zip (mkRs env (annotateAll c none kids))) s1).bind fun x => pure x.1) := by
    simp only [annotate, annotateTag, mkR, childSingle]
    show (if (true && outOfRange env.posRange span) = true then locW env span else _) s1 = _
    rw [Bool.true_and]
    split <;> rfl
  rw [hw] at h
  show Cuts env _ span.l span.r _ _
  split at h
  · have := locW_text (Nat.le_of_lt hb.1) hb.2.1 h
    rw [this]
    exact .copied _ hbt hb.2.1
  · cases kids with
    | nil =>
      cases locs with
      | nil =>
        have : span.l = span.r := hc
        have := hb.1
        omega
      | cons l ls => exact hc.elim
    | cons n ns =>
      cases locs with
      | nil => exact hc.elim
      | cons l ls =>
        obtain ⟨rfl, hp, hc⟩ := hc
        have hnb := hlk.1.basic
        change ((_ : Res (St × Bool)) >>= _) = _ at h
        simp only [annotateAll, mkRs, List.zip_cons_cons, plainList, Res.bind_eq_ok, Prod.exists, Res.pure_eq] at h
        obtain ⟨sx, ind, ⟨sa, nl, e0, sb, e1, sd, e2, e3⟩, h⟩ := h
        cases h
        have : sa = s1 ∧ nl = false := by
          unfold askFirst at e0
          split at e0
          · simp only [needFirstNewline, Res.pure_eq] at e0
            cases e0; exact ⟨rfl, rfl⟩
          · cases e0; exact ⟨rfl, rfl⟩
        obtain ⟨rfl, rfl⟩ := this
        rw [nlW_false] at e1
        have p1 := hintW_piece hp (by omega) e1
        rw [List.flatMap_cons]
        exact .append (.after p1 ((hq n List.mem_cons_self).2 _ _ e2))
          (listRest_cuts hc hlk.2 (fun k hk => hq k (List.mem_cons_of_mem _ hk)) hb.2.1 e3)

/-- The seams of the statements and of the `return` statement are seams. -/
theorem ret_seams {env : Env} {c : Config} {over : Option Bool} {span : Loc} {locs : List Loc} {k m : Node}
    (hl : (Node.mk .statsRetStat span locs [k, m]).Laid env c) {qs rs : List Nat}
    (hq : Seams env c none k qs) (hr : Seams env c none m rs) :
    Seams env c over (.mk .statsRetStat span locs [k, m]) (qs ++ rs) := by
  obtain ⟨hb, _, _, hc, hlk⟩ := hl
  obtain ⟨k', m', e, rfl, h1, h2, h3, h4, h5⟩ := hc rfl
  cases e
  have hkb := hlk.1.basic
  have hmb := hlk.2.1.basic
  have hbt : Between (qs ++ rs) span.l span.r := by
    rw [← h1, ← h2]
    exact .append hq.1 (.after h3 hr.1)
  refine ⟨hbt, ?_⟩
  intro s1 s2 h
  simp only [annotate, annotateTag, annotateAll, mkR, mkRs, childSingle] at h
  change (if (true && outOfRange env.posRange span) = true then locW env span else
      if notContained env.posRange span = true then
        runAll (runSh env _ [mkR env (annotate c none k), mkR env (annotate c none m)] c) [.kid 0, .gap 0, .kid 1]
      else runAll (runFm env _ [mkR env (annotate c none k), mkR env (annotate c none m)] c)
        [.el (.kid 0), .el (.nl (c.num .newlineFormatStatement).isSome 0 [' ']), .el (.kid 1)]) s1 = _ at h
  rw [Bool.true_and] at h
  show Cuts env _ span.l span.r _ _
  split at h
  · rw [locW_text (Nat.le_of_lt hb.1) hb.2.1 h]
    exact .copied _ hbt hb.2.1
  · next ho =>
    have key : ∀ sa sb : St, (mkR env (annotate c none k)).w c s1 = .ok sa → Piece env k.span.r m.span.l sa.f sb.f →
        (mkR env (annotate c none m)).w c sb = .ok s2 → Cuts env (qs ++ rs) span.l span.r s1.f s2.f := by
      intro sa sb e1 p2 e3
      rw [← h1, ← h2]
      exact .append (hq.2 _ _ e1) (.after p2 (hr.2 _ _ e3))
    split at h
    · simp only [runAll, runSh, kidW, List.getElem?_cons_zero, List.getElem?_cons_succ, Res.bind_eq_ok, Res.pure_eq] at h
      obtain ⟨sa, e1, sb, e2, sc, e3, h⟩ := h
      cases h
      refine key sa sb e1 ?_ e3
      have := locW_text (a := k.span.r) (b := m.span.l) h3 (by omega) e2
      rw [this]
      exact .copied _ h3 (by omega)
    · next hn =>
      simp only [runAll, runFm, runEl, kidW, List.getElem?_cons_zero, List.getElem?_cons_succ, Res.bind_eq_ok, Res.pure_eq] at h
      obtain ⟨sa, e1, sb, e2, sc, e3, h⟩ := h
      cases h
      refine key sa sb e1 ⟨h3, by omega, fun hx => ?_, nlW_grows e2⟩ e3
      exfalso
      cases hpr : env.posRange with
      | none => rw [hpr] at hx; cases hx
      | some lr =>
        rw [hpr] at ho hn hx
        simp only [outOfRange, notContained, Bool.or_eq_true, Bool.and_eq_true, decide_eq_true_eq] at ho hn hx
        omega

/-! ### Top-level statements -/

/-- The start and the end of each of the nodes. -/
def endsOf (ns : List Node) : List Nat := ns.flatMap fun s => [s.span.l, s.span.r]

theorem Seams.ends {env : Env} {c : Config} {over : Option Bool} {m : Node} (hl : m.Laid env c) (ht : m.tag.isStmt = true) :
    Seams env c over m (endsOf [m]) :=
  ⟨⟨Nat.le_refl _, Nat.le_of_lt hl.basic.1, Nat.le_refl _⟩, fun _ _ h => .ends (kid_piece hl ht h)⟩

theorem flatMap_endsOf {α : Type} (f : α → List Node) (xs : List α) : xs.flatMap (fun k => endsOf (f k)) = endsOf (xs.flatMap f) := by
  induction xs with
  | nil => rfl
  | cons x xs ih =>
    rw [List.flatMap_cons, List.flatMap_cons, ih]
    exact List.flatMap_append.symm

theorem endsOf_kids (kids : List Node) : endsOf kids = kids.flatMap fun k => endsOf [k] := by
  rw [flatMap_endsOf (fun k => [k]), List.flatMap_singleton']

theorem listStatements_seams {env : Env} {c : Config} {over : Option Bool} {span : Loc} {locs : List Loc} {kids : List Node}
    (hl : (Node.mk .statementList span locs kids).Laid env c) :
    Seams env c over (.mk .statementList span locs kids) (endsOf (listStatements kids)) := by
  unfold listStatements
  rw [← flatMap_endsOf]
  refine list_seams hl fun k hk => ?_
  have hlk := hl.kids k hk
  obtain ⟨tag, sp, ls, ks⟩ := k
  simp only [Node.tag]
  split
  · rw [endsOf_kids]
    exact list_seams hlk fun m hm => .ends (hlk.kids m hm) ((hlk.2.2.1 rfl).2 m hm)
  · exact .ends hlk ((hl.2.2.1 rfl).2 _ hk)

theorem blockStatements_seams {env : Env} {c : Config} {over : Option Bool} {n : Node} (hl : n.Laid env c) (ht : n.tag.isStmt = true) :
    Seams env c over n (endsOf (blockStatements n)) := by
  unfold blockStatements
  split
  · exact listStatements_seams hl
  · next span locs sp ls kids ret =>
    obtain ⟨k, m, e, e2, h1, h2, h3, h4, h5⟩ := hl.2.2.2.1 rfl
    cases e
    rw [endsOf, List.flatMap_append]
    exact ret_seams hl (listStatements_seams hl.2.2.2.2.1) (.ends hl.2.2.2.2.2.1 h5)
  · exact .ends hl ht

theorem mem_listStatements {kids : List Node} {s : Node} (h : s ∈ listStatements kids) :
    s ∈ kids ∨ ∃ span locs ks, .mk .statementList span locs ks ∈ kids ∧ s ∈ ks := by
  simp only [listStatements, List.mem_flatMap] at h
  obtain ⟨k, hk, hs⟩ := h
  obtain ⟨tag, span, locs, ks⟩ := k
  simp only [Node.tag] at hs
  split at hs
  · exact .inr ⟨span, locs, ks, hk, hs⟩
  · simp only [List.mem_singleton] at hs
    subst hs
    exact .inl hk

/-- The statement lies in the node. -/
structure Inside (env : Env) (c : Config) (n s : Node) : Prop where
  laid : s.Laid env c
  left : n.span.l ≤ s.span.l
  right : s.span.r ≤ n.span.r

theorem Inside.list {env : Env} {c : Config} {span : Loc} {locs : List Loc} {kids : List Node}
    (hl : (Node.mk .statementList span locs kids).Laid env c) {k s : Node} (hk : k ∈ kids) (h : Inside env c k s) :
    Inside env c (.mk .statementList span locs kids) s := by
  have hb := chain_bounds (hl.2.2.1 rfl).1 hl.2.2.2.2 hk
  exact ⟨h.laid, Nat.le_trans hb.1 h.left, Nat.le_trans h.right hb.2⟩

theorem listStatements_inside {env : Env} {c : Config} {span : Loc} {locs : List Loc} {kids : List Node}
    (hl : (Node.mk .statementList span locs kids).Laid env c) {s : Node} (hs : s ∈ listStatements kids) :
    Inside env c (.mk .statementList span locs kids) s := by
  rcases mem_listStatements hs with hs | ⟨sp, ls, ks, hk, hs⟩
  · exact .list hl hs ⟨hl.kids s hs, Nat.le_refl _, Nat.le_refl _⟩
  · have hlk := hl.kids _ hk
    exact .list hl hk (.list hlk hs ⟨hlk.kids s hs, Nat.le_refl _, Nat.le_refl _⟩)

theorem blockStatements_inside {env : Env} {c : Config} {n s : Node} (hl : n.Laid env c)
    (hs : s ∈ blockStatements n) : Inside env c n s := by
  unfold blockStatements at hs
  split at hs
  · exact listStatements_inside hl hs
  · next span locs sp ls kids ret =>
    obtain ⟨k, m, e, e2, h1, h2, h3, h4, h5⟩ := hl.2.2.2.1 rfl
    cases e
    have hlk := hl.2.2.2.2.1
    have hlm := hl.2.2.2.2.2.1
    have hkb := hlk.basic.1
    have hmb := hlm.basic.1
    rcases List.mem_append.mp hs with hs | hs
    · have h := listStatements_inside hlk hs
      have i1 := h.left
      have i2 := h.right
      refine ⟨h.laid, ?_, ?_⟩
      · show span.l ≤ _
        omega
      · show _ ≤ span.r
        omega
    · simp only [List.mem_singleton] at hs
      subst hs
      refine ⟨hlm, ?_, ?_⟩
      · show span.l ≤ _
        omega
      · show _ ≤ span.r
        omega
  · simp only [List.mem_singleton] at hs
    subst hs
    exact ⟨hl, Nat.le_refl _, Nat.le_refl _⟩

/-! ### The range at a seam -/

/-- Growing the range from `pr` to `pr'` does not move its ends over `q`. -/
def Holds (q : Nat) (pr pr' : Option (Nat × Nat)) : Prop :=
  ∀ l r, pr = some (l, r) → ∃ l' r', pr' = some (l', r') ∧ (q ≤ l → q ≤ l') ∧ (r ≤ q → r' ≤ q)

theorem Holds.refl (q : Nat) (pr : Option (Nat × Nat)) : Holds q pr pr := fun l r h => ⟨l, r, h, id, id⟩

theorem Holds.trans {q : Nat} {a b c : Option (Nat × Nat)} (h : Holds q a b) (h' : Holds q b c) : Holds q a c := by
  intro l r e
  obtain ⟨l1, r1, e1, i1, i2⟩ := h l r e
  obtain ⟨l2, r2, e2, j1, j2⟩ := h' l1 r1 e1
  exact ⟨l2, r2, e2, fun h => j1 (i1 h), fun h => j2 (i2 h)⟩

theorem node_keeps {q level : Nat} {n : Node} (hn : n.Nested) (hq : q ≤ n.span.l ∨ n.span.r ≤ q) (pr : Option (Nat × Nat)) :
    Holds q pr (growRange level n pr) := by
  rintro l r rfl
  obtain ⟨l', r', e, h1, h2, h3, h4, h5⟩ := growRange_ok n level l r hn
  have := hn.le
  refine ⟨l', r', e, fun h => ?_, fun h => ?_⟩
  · rcases hq with hq | hq
    · omega
    · have := h5 (.inr (by omega))
      omega
  · rcases hq with hq | hq
    · have := h5 (.inl (by omega))
      omega
    · omega

theorem all_keeps {q level : Nat} {ns : List Node} : ∀ {pr : Option (Nat × Nat)},
    (∀ n ∈ ns, ∀ pr, Holds q pr (growRange level n pr)) → Holds q pr (growRangeAll level ns pr) := by
  induction ns with
  | nil => intro pr _; exact .refl _ _
  | cons n ns ih =>
    intro pr h
    exact (h n List.mem_cons_self pr).trans (ih fun m hm => h m (List.mem_cons_of_mem _ hm))

mutual
theorem growRange_deep : ∀ (n : Node) (level : Nat) (pr : Option (Nat × Nat)), 2 ≤ level → growRange level n pr = pr
  | .mk tag span locs kids, level, pr, h => by
    rw [growRange, growRangeAll_deep kids _ _ (by cases tag <;> simp only [Tag.childLevel] <;> omega)]
    have : updatePosRange level span pr = pr := by
      unfold updatePosRange
      rw [if_neg (by omega)]
    split
    · exact this
    · rfl
theorem growRangeAll_deep : ∀ (ns : List Node) (level : Nat) (pr : Option (Nat × Nat)), 2 ≤ level → growRangeAll level ns pr = pr
  | [], _, _, _ => rfl
  | n :: ns, level, pr, h => by rw [growRangeAll, growRange_deep n level pr h, growRangeAll_deep ns level pr h]
end

theorem growRange_list (level : Nat) (span : Loc) (locs : List Loc) (kids : List Node) (pr : Option (Nat × Nat)) :
    growRange level (.mk .statementList span locs kids) pr = growRangeAll (level + 1) kids pr := rfl

theorem growRange_zero {tag : Tag} {span : Loc} {locs : List Loc} {kids : List Node} (h : tag ≠ .statementList)
    (pr : Option (Nat × Nat)) : growRange 0 (.mk tag span locs kids) pr = growRangeAll 0 kids pr := by
  rw [growRange]
  have h1 : Tag.childLevel 0 tag = 0 := by cases tag <;> first | rfl | exact absurd rfl h
  rw [h1]
  congr 1
  split
  · simp [updatePosRange]
  · rfl

theorem nestedAll_mem {n : Node} : ∀ {ns : List Node} {a b : Nat}, Node.NestedAll a b ns → n ∈ ns → n.Nested
  | m :: ns, a, b, h, hm => by
    rcases List.mem_cons.mp hm with rfl | hm
    · exact h.2.1
    · exact nestedAll_mem h.2.2 hm

/-- Two elements of a chain are the same or lie apart. -/
theorem chain_apart {env : Env} {c : Config} {k s : Node} : ∀ {ns : List Node} {p : Nat} {ls : List Loc} {r : Nat}, Chain p ls ns r →
    Node.LaidAll env c ns → k ∈ ns → s ∈ ns → k = s ∨ k.span.r ≤ s.span.l ∨ s.span.r ≤ k.span.l
  | [], _, _, _, _, _, h, _ => nomatch h
  | n :: ns, _, [], _, h, _, _, _ => h.elim
  | n :: ns, p, l :: ls, r, h, hl, hk, hs => by
    rcases List.mem_cons.mp hk with hk | hk <;> rcases List.mem_cons.mp hs with hs | hs
    · exact .inl (hk.trans hs.symm)
    · exact .inr (.inl (hk ▸ (chain_bounds h.2.2 hl.2 hs).1))
    · exact .inr (.inr (hs ▸ (chain_bounds h.2.2 hl.2 hk).1))
    · exact chain_apart h.2.2 hl.2 hk hs

theorem list_keeps {env : Env} {c : Config} {span : Loc} {locs : List Loc} {kids : List Node}
    (hl : (Node.mk .statementList span locs kids).Laid env c) (hn : (Node.mk .statementList span locs kids).Nested) {s : Node}
    (hs : s ∈ listStatements kids) {q : Nat} (hq : q = s.span.l ∨ q = s.span.r) (pr : Option (Nat × Nat)) :
    Holds q pr (growRange 0 (.mk .statementList span locs kids) pr) := by
  rw [growRange_list]
  refine all_keeps fun n hm pr => ?_
  have hnn := nestedAll_mem hn.2 hm
  have hc := (hl.2.2.1 rfl).1
  rcases mem_listStatements hs with hs | ⟨sp, ls, ks, hk, hs⟩
  · have hsl := (hl.kids s hs).basic.1
    rcases chain_apart hc hl.2.2.2.2 hm hs with rfl | h | h
    · refine node_keeps hnn ?_ pr
      omega
    · refine node_keeps hnn ?_ pr
      omega
    · refine node_keeps hnn ?_ pr
      omega
  · have hlk := hl.kids _ hk
    have hb := chain_bounds (hlk.2.2.1 rfl).1 hlk.2.2.2.2 hs
    have hsl := (hlk.kids s hs).basic.1
    rcases chain_apart hc hl.2.2.2.2 hm hk with rfl | h | h
    · rw [growRange_list, growRangeAll_deep _ _ _ (Nat.le_refl 2)]
      exact .refl _ _
    · refine node_keeps hnn ?_ pr
      have h : n.span.r ≤ sp.l := h
      omega
    · refine node_keeps hnn ?_ pr
      have h : sp.r ≤ n.span.l := h
      omega

theorem block_keeps {env : Env} {c : Config} {n s : Node} (hl : n.Laid env c) (hn : n.Nested)
    (hs : s ∈ blockStatements n) {q : Nat} (hq : q = s.span.l ∨ q = s.span.r) (pr : Option (Nat × Nat)) :
    Holds q pr (growRange 0 n pr) := by
  unfold blockStatements at hs
  split at hs
  · exact list_keeps hl hn hs hq pr
  · next span locs sp ls kids ret =>
    obtain ⟨k, m, e, e2, h1, h2, h3, h4, h5⟩ := hl.2.2.2.1 rfl
    cases e
    have hlk := hl.2.2.2.2.1
    have hlm := hl.2.2.2.2.2.1
    have hkb := hlk.basic.1
    have hmb := hlm.basic.1
    rw [growRange_zero (by decide)]
    show Holds q pr (growRange 0 ret (growRange 0 (.mk .statementList sp ls kids) pr))
    rcases List.mem_append.mp hs with hs | hs
    · have h := listStatements_inside hlk hs
      have i2 := h.right
      have i3 := h.laid.basic.1
      refine (list_keeps hlk hn.2.2.1 hs hq pr).trans (node_keeps hn.2.2.2.2.1 ?_ _)
      omega
    · simp only [List.mem_singleton] at hs
      subst hs
      refine (node_keeps hn.2.2.1 ?_ pr).trans (node_keeps hn.2.2.2.2.1 ?_ _) <;> omega
  · simp only [List.mem_singleton] at hs
    subst hs
    have := hl.basic.1
    exact node_keeps hn (by omega) pr

/-! ### Whole programs -/

theorem allStatements_chunk {s : Node} {sp : Loc} {ls : List Loc} : ∀ {n : Node}, s ∈ allStatements (.mk .chunk sp ls [n]) →
    allStatements (.mk .chunk sp ls [n]) = blockStatements n
  | .mk tag _ _ _, h => by cases tag <;> first | rfl | cases h

/-- The ends of the statements are seams of the printed text. -/
theorem tree_cut {src : Str} {tree s : Node} {pr : Option (Nat × Nat)} {c : Config} {out : Str} (hp : parseLua src = some tree)
    (hs : s ∈ allStatements tree) (hw : writeTree ⟨src, pr⟩ c (annotate c none tree) = .ok out) :
    ∃ b f, Cuts ⟨src, pr⟩ (endsOf (allStatements tree)) 0 b [] f ∧ Grows f out ∧
      (c.bool .writeNewlineAtEof ≠ some true → Piece ⟨src, pr⟩ b src.length f out) := by
  have ht := parseLua_laid hp pr c
  simp only [writeTree, Res.bind_eq_ok, Res.pure_eq] at hw
  obtain ⟨st, hw, h2⟩ := hw
  cases h2
  have hnl : ∀ {b : Nat} {s1 s2 : St}, b ≤ src.length →
      nlW ⟨src, pr⟩ c (decide (c.bool .writeNewlineAtEof = some true)) ⟨b, src.length⟩ [] s1 = .ok s2 →
      Grows s1.f s2.f ∧ (c.bool .writeNewlineAtEof ≠ some true → Piece ⟨src, pr⟩ b src.length s1.f s2.f) := by
    intro b s1 s2 hb h
    refine ⟨nlW_grows h, fun hne => ?_⟩
    rw [decide_eq_false hne, nlW_false] at h
    exact hintW_piece hb (Nat.le_refl _) h
  cases ht with
  | empty sp => exact nomatch hs
  | line sp ls x a => exact nomatch hs
  | block sp n hl hst =>
    rw [allStatements_chunk hs]
    have hi := blockStatements_seams hl hst (over := none)
    have hb := hl.basic
    have hww : ∀ (ks : List Node) locs sp, (mkR ⟨src, pr⟩ (.mk .chunk sp locs ks)).w c =
        runAll (runFm ⟨src, pr⟩ locs (mkRs ⟨src, pr⟩ ks) c)
          [.el (.hint 0 []), .el (.kid 0), .el (.nl (decide (c.bool .writeNewlineAtEof = some true)) 1 [])] :=
      fun _ _ _ => rfl
    simp only [annotate, annotateAll, annotateTag, hww, mkRs, runAll, runFm, runEl, kidW, Res.bind_eq_ok,
      Res.pure_eq, List.getElem?_cons_zero] at hw
    obtain ⟨s1, e1, s2, e2, s3, e3, e4⟩ := hw
    cases e4
    have p1 := hintW_piece (a := 0) (b := n.span.l) (Nat.zero_le _) (Nat.le_trans (Nat.le_of_lt hb.1) hb.2.1) e1
    obtain ⟨g, k⟩ := hnl hb.2.1 e3
    exact ⟨n.span.r, s2.f, .after p1 (hi.2 _ _ e2), g, k⟩
  | both sp x a n hl hst ha1 ha2 hx =>
    have hi := blockStatements_seams hl hst (over := none)
    have hb := hl.basic
    have hww : ∀ (ks : List Node) locs sp, (mkR ⟨src, pr⟩ (.mk .sheBangChunk sp locs ks)).w c =
        runAll (runFm ⟨src, pr⟩ locs (mkRs ⟨src, pr⟩ ks) c)
          [.el (.hint 0 []), .el (.kid 0), .el (.hint 1 []), .el (.kid 1), .el (.nl (decide (c.bool .writeNewlineAtEof = some true)) 2 [])] :=
      fun _ _ _ => rfl
    simp only [annotate, annotateAll, annotateTag, hww, mkRs, runAll, runFm, runEl, kidW, Res.bind_eq_ok,
      Res.pure_eq, List.getElem?_cons_zero, List.getElem?_cons_succ] at hw
    obtain ⟨s1, e1, s2, e2, s3, e3, s4, e4, s5, e5, e6⟩ := hw
    cases e6
    have hal : a.r ≤ src.length := by
      have := hb.2.1
      simp only at this
      omega
    have p1 := hintW_piece (a := 0) (b := a.l) (Nat.zero_le _) (show a.l ≤ src.length by omega) e1
    have p2 : Piece ⟨src, pr⟩ a.l a.r s1.f s2.f := by
      have e2 : (Res.ok (s1.put (x ++ ['\n'])) : Res St) = .ok s2 := e2
      cases e2
      have := Piece.copied (env := ⟨src, pr⟩) s1.f ha1 hal
      rwa [hx] at this
    have p3 := hintW_piece (a := a.r) (b := n.span.l) ha2 (Nat.le_trans (Nat.le_of_lt hb.1) hb.2.1) e3
    obtain ⟨g, k⟩ := hnl hb.2.1 e5
    exact ⟨n.span.r, s4.f, .after ((p1.trans p2).trans p3) (hi.2 _ _ e4), g, k⟩

theorem tree_keeps {src : Str} {tree s : Node} (hp : parseLua src = some tree) (hs : s ∈ allStatements tree) {q : Nat}
    (hq : q = s.span.l ∨ q = s.span.r) (pr : Option (Nat × Nat)) : Holds q pr (growRange 0 tree pr) := by
  have ht := parseLua_laid hp none Config.default
  obtain ⟨tag, span, locs, kids, rfl, htag, hn⟩ := parseLua_nested hp
  cases ht with
  | empty sp => exact nomatch hs
  | line sp ls x a => exact nomatch hs
  | block sp n hl hst =>
    have hs : s ∈ blockStatements n := by rwa [allStatements_chunk hs] at hs
    rw [growRange_zero (by decide)]
    exact block_keeps hl hn.2.1 hs hq pr
  | both sp x a n hl hst ha1 ha2 hx =>
    rw [growRange_zero (by decide)]
    have hi := blockStatements_inside hl hs
    have := hi.left
    have := hi.laid.basic.1
    show Holds q pr (growRange 0 n (growRange 0 (.mk (.sheBang x) a [] []) pr))
    refine (node_keeps hn.2.1 (.inr ?_) pr).trans (block_keeps hl hn.2.2.2.1 hs hq _)
    show a.r ≤ q
    omega

theorem tree_inside {src : Str} {tree s : Node} (hp : parseLua src = some tree) (hs : s ∈ allStatements tree) (pr : Option (Nat × Nat))
    (c : Config) : s.Laid ⟨src, pr⟩ c := by
  have ht := parseLua_laid hp pr c
  cases ht with
  | empty sp => exact nomatch hs
  | line sp ls x a => exact nomatch hs
  | block sp n hl hst =>
    have hs : s ∈ blockStatements n := by rwa [allStatements_chunk hs] at hs
    exact (blockStatements_inside hl hs).laid
  | both sp x a n hl hst ha1 ha2 hx => exact (blockStatements_inside hl hs).laid

theorem mem_endsOf {ns : List Node} {s : Node} (h : s ∈ ns) {q : Nat} (hq : q = s.span.l ∨ q = s.span.r) : q ∈ endsOf ns :=
  List.mem_flatMap.mpr ⟨s, h, by simpa using hq⟩

theorem format_tree {src : Str} {tree : Node} {c : Config} {out : Str} {l r l' r' : Nat} (hp : parseLua src = some tree)
    (hr : lineRangeToPosRange src c.lineRange = .ok (some (l, r))) (hf : format c src = .ok out)
    (hg : growRange 0 tree (some (l, r)) = some (l', r')) :
    writeTree ⟨src, some (l', r')⟩ c (annotate c none tree) = .ok out := by
  unfold format at hf
  simp only [hp, formatTree, effectiveRange, hr, Res.bind_ok, Res.pure_eq, hg] at hf
  split at hf
  · next ho => cases hf; exact ho
  · cases hf
  · cases hf

/-- The text up to the end of a statement before the requested range. -/
theorem format_before {src : Str} {tree s : Node} {c : Config} {out : Str} {l r : Nat} (hp : parseLua src = some tree)
    (hs : s ∈ allStatements tree) (hr : lineRangeToPosRange src c.lineRange = .ok (some (l, r))) (hf : format c src = .ok out)
    {q : Nat} (hq : q = s.span.l ∨ q = s.span.r) (hql : q ≤ l) : Grows (src.take q) out := by
  obtain ⟨l', r', e, k1, _⟩ := tree_keeps hp hs hq (some (l, r)) l r rfl
  obtain ⟨b, f, h, h3, _⟩ := tree_cut hp hs (format_tree hp hr hf e)
  obtain ⟨g, p1, p2⟩ := h.one (mem_endsOf hs hq)
  have := p1.copy (by simp only [outOfRange, Bool.or_eq_true, decide_eq_true_eq]; exact .inl (k1 hql))
  rw [List.nil_append, slice_take] at this
  subst this
  exact p2.grows.trans h3

/-- The text from a statement behind the requested range. -/
theorem format_after {src : Str} {tree s : Node} {c : Config} {out : Str} {l r : Nat} (hp : parseLua src = some tree)
    (hs : s ∈ allStatements tree) (hr : lineRangeToPosRange src c.lineRange = .ok (some (l, r))) (hf : format c src = .ok out)
    (hn : c.bool .writeNewlineAtEof ≠ some true) {q : Nat} (hq : q = s.span.l ∨ q = s.span.r) (hql : r ≤ q) : src.drop q <:+ out := by
  obtain ⟨l', r', e, _, k2⟩ := tree_keeps hp hs hq (some (l, r)) l r rfl
  obtain ⟨b, f, h, _, h3⟩ := tree_cut hp hs (format_tree hp hr hf e)
  obtain ⟨g, p1, p2⟩ := h.one (mem_endsOf hs hq)
  have := (p2.trans (h3 hn)).copy (by simp only [outOfRange, Bool.or_eq_true, decide_eq_true_eq]; exact .inr (k2 hql))
  exact ⟨g, by rw [this]; simp [slice]⟩

/-- Both at once. -/
theorem format_both {src : Str} {tree s t : Node} {c : Config} {out : Str} {l r : Nat} (hp : parseLua src = some tree)
    (hs : s ∈ allStatements tree) (ht : t ∈ allStatements tree)
    (hr : lineRangeToPosRange src c.lineRange = .ok (some (l, r))) (hlr : l ≤ r) (hf : format c src = .ok out)
    (hn : c.bool .writeNewlineAtEof ≠ some true) (hsl : s.span.r ≤ l) {q : Nat} (hq : q = t.span.l ∨ q = t.span.r) (hql : r ≤ q) :
    ∃ mid, out = src.take s.span.r ++ mid ++ src.drop q := by
  obtain ⟨l', r', e, k1, _⟩ := tree_keeps hp hs (.inr rfl) (some (l, r)) l r rfl
  obtain ⟨l2, r2, e2, _, k2⟩ := tree_keeps hp ht hq (some (l, r)) l r rfl
  cases e.symm.trans e2
  obtain ⟨b, f, h, _, h3⟩ := tree_cut hp hs (format_tree hp hr hf e)
  obtain ⟨g, p1, g', p2, p3⟩ := h.two (show s.span.r ≤ q by omega) (mem_endsOf hs (.inr rfl)) (mem_endsOf ht hq)
  have h1 := p1.copy (by simp only [outOfRange, Bool.or_eq_true, decide_eq_true_eq]; exact .inl (k1 hsl))
  have h2 := (p3.trans (h3 hn)).copy (by simp only [outOfRange, Bool.or_eq_true, decide_eq_true_eq]; exact .inr (k2 hql))
  rw [List.nil_append, slice_take] at h1
  subst h1
  obtain ⟨mid, rfl⟩ := p2.grows _ (tree_inside hp hs none c).basic.2.2 (List.prefix_refl _)
  exact ⟨mid, by rw [h2]; simp [slice]⟩

end Luafmt
