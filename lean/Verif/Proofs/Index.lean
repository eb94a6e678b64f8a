import Verif.Proofs.LayoutTree

/-
The tree of a program with token numbers in place of positions. The tree of a source is the tree of its tokens with
the numbers replaced by positions; so sources with the same tokens have trees that differ in positions only.
-/
namespace Luafmt
open Spec

/-! ### Replacing positions -/

variable (φ : Nat → Nat)

def Loc.move (l : Loc) : Loc := ⟨φ l.l, φ l.r⟩

def TokL.move (t : TokL) : TokL := ⟨φ t.l, t.tok, φ t.r⟩

mutual
def Node.move : Node → Node
  | .mk t sp ls ks => .mk t (sp.move φ) (ls.map (Loc.move φ)) (Node.moveAll ks)
def Node.moveAll : List Node → List Node
  | [] => []
  | n :: ns => n.move :: Node.moveAll ns
end

mutual
def Cst.move : Cst TokL → Cst TokL
  | .tok t => .tok (t.move φ)
  | .node tag xs => .node tag (Cst.moveAll xs)
def Cst.moveAll : List (Cst TokL) → List (Cst TokL)
  | [] => []
  | x :: xs => x.move :: Cst.moveAll xs
end

def Part.move : Part → Part
  | .tok t => .tok (t.move φ)
  | .node n => .node (n.move φ)

variable {φ}

theorem moveAll_map (ns : List Node) : Node.moveAll φ ns = ns.map (Node.move φ) := by
  induction ns with
  | nil => rfl
  | cons n ns ih => simp [Node.moveAll, ih]

theorem Node.move_span (n : Node) : (n.move φ).span = n.span.move φ := by
  cases n; rfl

theorem Part.move_span (p : Part) : (p.move φ).span = p.span.move φ := by
  cases p with
  | tok t => rfl
  | node n => exact n.move_span

theorem Part.move_tok (t : TokL) : (Part.tok t).move φ = .tok (t.move φ) := rfl

theorem Part.move_node (n : Node) : (Part.node n).move φ = .node (n.move φ) := rfl

theorem gapsOf_move : ∀ ps : List Part, gapsOf (ps.map (Part.move φ)) = (gapsOf ps).map (Loc.move φ)
  | [] => rfl
  | [_] => rfl
  | p :: q :: ps => by
    have := gapsOf_move (q :: ps)
    simp only [List.map_cons] at this
    simp only [List.map_cons, gapsOf, Part.move_span, this]
    rfl

theorem sepLocs_move : ∀ (pre : Loc) (ps : List Part),
    sepLocs (pre.move φ) (ps.map (Part.move φ)) = ((sepLocs pre ps).1.map (Loc.move φ), (sepLocs pre ps).2)
  | _, [] => rfl
  | pre, [p] => by
    cases p with
    | tok t => rfl
    | node n => simp [sepLocs, Part.move, Part.span, Node.move_span, Loc.move]
  | pre, p :: .tok s :: ps => by
    simp only [List.map_cons, Part.move_tok, sepLocs]
    have ih := fun l => sepLocs_move l ps
    cases ps with
    | nil => simp [sepLocs, Part.move_span, Loc.move, TokL.move]
    | cons q ps =>
      simp only [List.map_cons, Part.move_span] at ih ⊢
      have := ih ⟨s.r, q.span.l⟩
      simp only [Loc.move, TokL.move] at this ⊢
      rw [this]
  | pre, p :: .node n :: ps => by
    have ih := sepLocs_move ⟨p.span.r, n.span.l⟩ (.node n :: ps)
    simp only [List.map_cons, Part.move_node, sepLocs, Part.move_span, Node.move_span, Loc.move] at ih ⊢
    rw [ih]

theorem node?_move (ps : List Part) : (ps.map (Part.move φ)).filterMap Part.node? = (ps.filterMap Part.node?).map (Node.move φ) := by
  induction ps with
  | nil => rfl
  | cons p ps ih => cases p <;> simp [Part.move, Part.node?, List.filterMap_cons, ih]

theorem buildNode_move (h0 : φ 0 = 0) (tag : Tag) (ps : List Part) :
    buildNode tag (ps.map (Part.move φ)) = (buildNode tag ps).move φ := by
  have e1 : ((ps.map (Part.move φ)).head?.map (·.span.l)).getD 0 = φ ((ps.head?.map (·.span.l)).getD 0) := by
    cases ps with
    | nil => exact h0.symm
    | cons p ps => simp [Part.move_span, Loc.move]
  have e2 : ((ps.map (Part.move φ)).getLast?.map (·.span.r)).getD 0 = φ ((ps.getLast?.map (·.span.r)).getD 0) := by
    rw [List.getLast?_map]
    cases ps.getLast? with
    | none => exact h0.symm
    | some p => simp [Part.move_span, Loc.move]
  unfold buildNode
  simp only [e1, e2]
  cases tag.seps with
  | some ss =>
    simp only
    have := sepLocs_move (φ := φ) ⟨(ps.head?.map (·.span.l)).getD 0, (ps.head?.map (·.span.l)).getD 0⟩ ps
    simp only [Loc.move] at this
    rw [this]
    simp only [Node.move, moveAll_map, node?_move]
    rfl
  | none =>
    simp only
    split
    · simp only [Node.move, moveAll_map, node?_move, gapsOf_move, List.map_cons]
      rfl
    · simp only [Node.move, moveAll_map, node?_move, gapsOf_move]
      rfl

mutual
theorem placeC_move (h0 : φ 0 = 0) : ∀ x : Cst TokL, placeC (x.move φ) = (placeC x).move φ
  | .tok _ => rfl
  | .node tag xs => by
    simp only [Cst.move, placeC, Part.move, placeAll_move h0 xs, buildNode_move h0]
theorem placeAll_move (h0 : φ 0 = 0) : ∀ xs : List (Cst TokL), placeAll (Cst.moveAll φ xs) = (placeAll xs).map (Part.move φ)
  | [] => rfl
  | x :: xs => by
    simp only [Cst.moveAll, placeAll, placeC_move h0 x, placeAll_move h0 xs, List.map_cons]
end

theorem placeNode_move (h0 : φ 0 = 0) (x : Cst TokL) : placeNode (x.move φ) = (placeNode x).move φ := by
  unfold placeNode
  rw [placeC_move h0]
  cases placeC x with
  | tok t => simp [Part.move, Part.node?, Node.move, Node.moveAll, Loc.move, h0]
  | node n => rfl

mutual
theorem attach_move (h0 : φ 0 = 0) : ∀ (x : C) (ps : List TokL),
    attach x (ps.map (TokL.move φ)) = ((attach x ps).1.move φ, (attach x ps).2.map (TokL.move φ))
  | .tok t, [] => by simp [attach, Cst.move, TokL.move, h0]
  | .tok t, p :: ps => rfl
  | .node tag xs, ps => by simp only [attach, attachAll_move h0 xs ps, Cst.move]
theorem attachAll_move (h0 : φ 0 = 0) : ∀ (xs : List C) (ps : List TokL),
    attachAll xs (ps.map (TokL.move φ)) = (Cst.moveAll φ (attachAll xs ps).1, (attachAll xs ps).2.map (TokL.move φ))
  | [], ps => rfl
  | x :: xs, ps => by simp only [attachAll, attach_move h0 x ps, attachAll_move h0 xs, Cst.moveAll]
end

theorem placeChunk_move (h0 : φ 0 = 0) (e : Nat) (ts : List TokL) (sb b : Option C) :
    placeChunk (φ e) (ts.map (TokL.move φ)) sb b = (placeChunk e ts sb b).move φ := by
  cases sb <;> cases b <;>
    simp [placeChunk, attach_move h0, placeNode_move h0, Node.move, Node.moveAll, Loc.move, Node.move_span, h0]

/-! ### Twins -/

mutual
/-- The gaps of all nodes. -/
def Node.allLocs : Node → List Loc
  | .mk _ _ ls ks => ls ++ Node.allLocsAll ks
def Node.allLocsAll : List Node → List Loc
  | [] => []
  | n :: ns => n.allLocs ++ Node.allLocsAll ns
end

theorem pairs_map {ψ : Nat → Nat} {G : Loc → Loc → Prop} : ∀ {ls : List Loc}, (∀ l ∈ ls, G (l.move φ) (l.move ψ)) →
    Pairs G (ls.map (Loc.move φ)) (ls.map (Loc.move ψ))
  | [], _ => .nil
  | l :: ls, h => .cons (h l (by simp)) (pairs_map (fun k hk => h k (by simp [hk])))

mutual
theorem move_twin {c : Config} {ψ : Nat → Nat} {G : Loc → Loc → Prop} : ∀ (n : Node),
    (∀ l ∈ n.allLocs, G (l.move φ) (l.move ψ)) → Twin c G (n.move φ) (n.move ψ)
  | .mk t sp ls ks, h => .mk (TwinTag.refl t) (pairs_map (fun l hl => h l (List.mem_append_left _ hl)))
      (moveAll_twin ks (fun l hl => h l (List.mem_append_right _ hl)))
theorem moveAll_twin {c : Config} {ψ : Nat → Nat} {G : Loc → Loc → Prop} : ∀ (ns : List Node),
    (∀ l ∈ Node.allLocsAll ns, G (l.move φ) (l.move ψ)) → Twins c G (Node.moveAll φ ns) (Node.moveAll ψ ns)
  | [], _ => .nil
  | n :: ns, h => .cons (move_twin n (fun l hl => h l (List.mem_append_left _ hl)))
      (moveAll_twin ns (fun l hl => h l (List.mem_append_right _ hl)))
end

mutual
theorem allLocs_move : ∀ n : Node, (n.move φ).allLocs = n.allLocs.map (Loc.move φ)
  | .mk t sp ls ks => by simp [Node.move, Node.allLocs, allLocsAll_move ks]
theorem allLocsAll_move : ∀ ns : List Node, Node.allLocsAll (Node.moveAll φ ns) = (Node.allLocsAll ns).map (Loc.move φ)
  | [] => rfl
  | n :: ns => by simp [Node.moveAll, Node.allLocsAll, allLocs_move n, allLocsAll_move ns]
end

mutual
theorem Node.Live.gaps {env : Env} : ∀ (n : Node), n.Live env → ∀ l ∈ n.allLocs, GapAt env l
  | .mk t sp ls ks, h, l, hl => by
    rcases List.mem_append.mp hl with hl | hl
    · exact h.2.1 l hl
    · exact Node.LiveAll.gaps ks h.2.2.2.2 l hl
theorem Node.LiveAll.gaps {env : Env} : ∀ (ns : List Node), Node.LiveAll env ns → ∀ l ∈ Node.allLocsAll ns, GapAt env l
  | n :: ns, h, l, hl => by
    rcases List.mem_append.mp hl with hl | hl
    · exact Node.Live.gaps n h.1 l hl
    · exact Node.LiveAll.gaps ns h.2 l hl
end

/-! ### Token numbers -/

/-- Tokens with numbers in place of positions. -/
def idxFrom : Nat → List Token → List TokL
  | k, [] => [⟨k + 1, .eof, k + 1⟩]
  | k, t :: ts => ⟨k + 1, t, k + 2⟩ :: idxFrom (k + 2) ts

/-- The position with a number. -/
def posAt : Nat → List TokL → Nat → Nat
  | p, _, 0 => p
  | _, [], _ => 0
  | _, t :: _, 1 => t.l
  | _, t :: ts, n + 2 => posAt t.r ts n

theorem idx_move (ψ : Nat → Nat) : ∀ (us : List TokL) (e : TokL) (k p : Nat), e.tok = .eof → e.r = e.l →
    (∀ n, ψ (k + n) = posAt p (us ++ [e]) n) → (idxFrom k (us.map (·.tok))).map (TokL.move ψ) = us ++ [e]
  | [], e, k, p, he, hr, h => by
    have := h 1
    simp only [List.nil_append, posAt] at this
    obtain ⟨l, t, r⟩ := e
    simp only at he hr this
    simp [idxFrom, TokL.move, this, he, hr]
  | u :: us, e, k, p, he, hr, h => by
    have h1 := h 1
    have h2 := h 2
    simp only [List.cons_append, posAt] at h1 h2
    have ih := idx_move ψ us e (k + 2) u.r he hr (fun n => by
      have := h (n + 2)
      simp only [List.cons_append, posAt] at this
      rw [← this]
      congr 1
      omega)
    simp [idxFrom, TokL.move, h1, h2, ih]

theorem posAt_end : ∀ (us : List TokL) (e : TokL) (p : Nat), posAt p (us ++ [e]) (2 * us.length + 1) = e.l
  | [], e, p => rfl
  | u :: us, e, p => by
    have := posAt_end us e u.r
    rw [List.length_cons, show 2 * (us.length + 1) + 1 = 2 * us.length + 1 + 2 from by omega, List.cons_append, posAt]
    exact this

/-- The tree of a sequence of tokens. -/
def idxTree (ts : List Token) (sb b : Option C) : Node := placeChunk (2 * ts.length + 1) (idxFrom 0 ts) sb b

/-- What lexing and parsing give. -/
structure Parsed (src : Str) (us : List TokL) (e : TokL) (sb b : Option C) : Prop where
  lex : lexLua src = some (us ++ [e])
  eof : e.tok = .eof
  stop : e.l = src.length ∧ e.r = e.l
  notEof : ∀ u ∈ us, u.tok ≠ .eof
  ends : ∀ u ∈ us, TokEnd u.tok
  chunk : parseChunk ((us ++ [e]).map (·.tok)) = some (sb, b)

theorem tiles_stop {us : List TokL} : ∀ {s : Str} {p : Nat} {e : TokL}, TilesR s p (us ++ [e]) → e.tok = .eof → e.r = e.l := by
  induction us with
  | nil =>
    intro s p e h he
    rcases h with ⟨_, _, _, _, h⟩ | ⟨_, _, _, h, _⟩
    · exact h
    · exact absurd he h
  | cons u us ih =>
    intro s p e h he
    rcases h with ⟨_, h, _⟩ | ⟨g, w, s', h1, rfl, _, h2, h3, _, _, h4⟩
    · simp at h
    · exact ih h4 he

theorem parsed_of {src : Str} {tree : Node} (h : parseLua src = some tree) : ∃ us e sb b, Parsed src us e sb b ∧
    tree = placeChunk src.length (us ++ [e]) sb b := by
  unfold parseLua at h
  simp only [Option.bind_eq_bind, Option.bind_eq_some_iff, Option.some.injEq, Prod.exists] at h
  obtain ⟨toks, hlex, sb, b, hc, rfl⟩ := h
  have hT := lexFrom_tilesR 0 src _ hlex
  obtain ⟨_, _, h3⟩ := parseChunk_sound hc
  obtain ⟨us, vs, rfl, e1, e2⟩ := List.map_eq_append_iff.mp h3
  obtain ⟨e, rfl, e3⟩ : ∃ e, vs = [e] ∧ e.tok = .eof := by
    cases vs with
    | nil => simp at e2
    | cons v vs =>
      cases vs with
      | nil => exact ⟨v, rfl, by simpa using e2⟩
      | cons w ws => simp at e2
  obtain ⟨te1, te2⟩ := tiles_eof hT
  refine ⟨us, e, sb, b, ⟨hlex, e3, ⟨by rw [te2 e3]; simp, tiles_stop hT e3⟩, te1, fun u hu => ?_, hc⟩, rfl⟩
  rcases lexFrom_tokOk 0 src _ hlex u (List.mem_append_left _ hu) with h | ⟨n, h⟩
  · exact absurd h (te1 u hu)
  · exact reads_end h

theorem Parsed.tree {src : Str} {us : List TokL} {e : TokL} {sb b : Option C} (h : Parsed src us e sb b) :
    placeChunk src.length (us ++ [e]) sb b = (idxTree (us.map (·.tok)) sb b).move (posAt 0 (us ++ [e])) := by
  unfold idxTree
  rw [← placeChunk_move (by cases us <;> rfl), idx_move _ us e 0 0 h.eof h.stop.2 (fun n => by simp)]
  congr 1
  rw [List.length_map, posAt_end, h.stop.1]

/-! ### The gaps of the tree of token numbers -/

/-- A text with a letter for each token. -/
def dots (n : Nat) : Str := (List.range (2 * n + 1)).map (fun i => if i % 2 = 0 then ' ' else 'x')

theorem dots_length (n : Nat) : (dots n).length = 2 * n + 1 := by simp [dots]

theorem dots_get {n i : Nat} (h : i < 2 * n + 1) : (dots n)[i]? = some (if i % 2 = 0 then ' ' else 'x') := by
  unfold dots
  rw [List.getElem?_map, List.getElem?_range h]
  rfl

theorem gap_dots {g : Str} (h : FinalGap g) (hg : '-' ∉ g) : 'x' ∉ g := by
  have main : ∀ g : Str, Gap g → '-' ∉ g → 'x' ∉ g := by
    intro g h
    induction h with
    | nil => simp
    | blank c g hc _ ih =>
      intro hn
      simp only [List.mem_cons, not_or] at hn ⊢
      exact ⟨by rcases hc with rfl | rfl | rfl | rfl <;> decide, ih hn.2⟩
    | line => intro hn; simp at hn
    | long => intro hn; simp at hn
  rcases h with h | ⟨a, t, rfl, _, _⟩
  · exact main g h hg
  · simp at hg

theorem gapAt_dots {n : Nat} {pr : Option (Nat × Nat)} {l : Loc} (h : GapAt ⟨dots n, pr⟩ l) :
    l.r ≤ 2 * n + 1 ∧ (l.r = l.l ∨ (l.l % 2 = 0 ∧ l.r = l.l + 1)) := by
  obtain ⟨a, g, b, e, rfl, hg⟩ := h
  simp only at e
  have hl := congrArg List.length e
  rw [dots_length] at hl
  simp only [List.length_append] at hl
  have hget : ∀ i, i < g.length → g[i]? = some (if (a.length + i) % 2 = 0 then ' ' else 'x') := by
    intro i hi
    rw [← dots_get (n := n) (i := a.length + i) (by omega), e, List.getElem?_append_right (by omega),
      List.getElem?_append_left (by omega)]
    congr 1
    omega
  have hm : '-' ∉ g := by
    intro hm
    obtain ⟨i, hi, e⟩ := List.getElem_of_mem hm
    have := hget i hi
    rw [List.getElem?_eq_getElem hi, e] at this
    split at this <;> simp at this
  have hx := gap_dots hg hm
  have hx' : ∀ i, i < g.length → (a.length + i) % 2 = 0 := by
    intro i hi
    apply Classical.byContradiction
    intro hn
    have := hget i hi
    rw [if_neg hn] at this
    exact hx (List.mem_of_getElem? this)
  refine ⟨by show a.length + g.length ≤ _; omega, ?_⟩
  show a.length + g.length = a.length ∨ (a.length % 2 = 0 ∧ a.length + g.length = a.length + 1)
  match hk : g.length with
  | 0 => exact .inl rfl
  | 1 => exact .inr ⟨by simpa using hx' 0 (by omega), rfl⟩
  | k + 2 =>
    have h1 := hx' 0 (by omega)
    have h2 := hx' 1 (by omega)
    omega

theorem dots_gap {n k : Nat} (pr : Option (Nat × Nat)) (h : k < 2 * n + 1) (hk : k % 2 = 0) : GapAt ⟨dots n, pr⟩ ⟨k, k + 1⟩ := by
  refine ⟨(dots n).take k, [' '], (dots n).drop (k + 1), ?_, ?_, .inl (.blank _ _ (.inl rfl) .nil)⟩
  · simp only
    have := dots_get h
    rw [if_pos hk] at this
    have hd : (dots n).drop k = ' ' :: (dots n).drop (k + 1) := by
      rw [List.drop_eq_getElem_cons (by rw [dots_length]; omega)]
      congr 1
      rw [List.getElem?_eq_getElem (by rw [dots_length]; omega)] at this
      exact Option.some.inj this
    rw [List.singleton_append, ← hd, List.take_append_drop]
  · rw [List.length_take, dots_length]
    simp
    omega

theorem dots_row (pr : Option (Nat × Nat)) {n : Nat} : ∀ (ts : List Token) (k : Nat), k % 2 = 0 → k + 2 * ts.length = 2 * n →
    RowFrom ⟨dots n, pr⟩ k (idxFrom k ts)
  | [], k, hk, h => by
    refine ⟨dots_gap pr (by simp at h; omega) hk, Nat.le_refl _, ?_, trivial⟩
    show k + 1 ≤ (dots n).length
    rw [dots_length]
    simp at h
    omega
  | t :: ts, k, hk, h => by
    simp only [List.length_cons] at h
    refine ⟨dots_gap pr (by omega) hk, Nat.le_succ _, ?_, dots_row pr ts (k + 2) (by omega) (by omega)⟩
    show k + 2 ≤ (dots n).length
    rw [dots_length]
    omega

theorem idxFrom_split : ∀ (ts : List Token) (k : Nat), ∃ us, idxFrom k ts = us ++ [⟨k + 2 * ts.length + 1, .eof, k + 2 * ts.length + 1⟩] ∧
    us.map (·.tok) = ts
  | [], k => ⟨[], rfl, rfl⟩
  | t :: ts, k => by
    obtain ⟨us, h1, h2⟩ := idxFrom_split ts (k + 2)
    refine ⟨⟨k + 1, t, k + 2⟩ :: us, ?_, by simp [h2]⟩
    rw [idxFrom, h1, List.length_cons, show k + 2 + 2 * ts.length = k + 2 * (ts.length + 1) from by omega]
    rfl

/-- The gaps of the tree are empty or lie between consecutive tokens. -/
theorem idxTree_gaps {ts : List Token} {sb b : Option C} (h : parseChunk (ts ++ [.eof]) = some (sb, b)) (he : ∀ t ∈ ts, t ≠ .eof)
    (hE : ∀ t ∈ ts, TokEnd t) : ∀ l ∈ (idxTree ts sb b).allLocs, l.r ≤ 2 * ts.length + 1 ∧
      (l.r = l.l ∨ (l.l % 2 = 0 ∧ l.r = l.l + 1)) := by
  obtain ⟨h1, h2, h3⟩ := parseChunk_sound h
  obtain ⟨us, e1, e2⟩ := idxFrom_split ts 0
  rw [Nat.zero_add] at e1
  have hmem : ∀ u ∈ us, u.tok ∈ ts := fun u hu => by rw [← e2]; exact List.mem_map_of_mem hu
  have hlen : (⟨dots ts.length, none⟩ : Env).buf.length = 2 * ts.length + 1 := dots_length _
  have hrow := dots_row none (n := ts.length) ts 0 rfl (by omega)
  rw [e1] at hrow
  have hlive := placeChunk_live (env := ⟨dots ts.length, none⟩) (sb := sb) (b := b) hrow (fun u hu => he _ (hmem u hu)) hlen.symm rfl
    (fun u hu => hE _ (hmem u hu)) (fun x hx => (by obtain ⟨s, rfl⟩ := h1 x hx; exact .leaf rfl)) h2
    (by rw [List.map_append, e2]; exact h3)
  rw [hlen, ← e1] at hlive
  intro l hl
  exact gapAt_dots (hlive.gaps _ l hl)

theorem Parsed.idx {src : Str} {us : List TokL} {e : TokL} {sb b : Option C} (h : Parsed src us e sb b) :
    ∀ l ∈ (idxTree (us.map (·.tok)) sb b).allLocs, l.r ≤ 2 * us.length + 1 ∧ (l.r = l.l ∨ (l.l % 2 = 0 ∧ l.r = l.l + 1)) := by
  have hc := h.chunk
  rw [List.map_append, List.map_singleton, h.eof] at hc
  have := idxTree_gaps hc (fun t ht => by obtain ⟨u, hu, rfl⟩ := List.mem_map.mp ht; exact h.notEof u hu)
    (fun t ht => by obtain ⟨u, hu, rfl⟩ := List.mem_map.mp ht; exact h.ends u hu)
  rw [List.length_map] at this
  exact this

/-- Sources with the same tokens have the same tree but for the positions. -/
theorem Parsed.same {src src' : Str} {us us' : List TokL} {e e' : TokL} {sb b sb' b' : Option C} (h : Parsed src us e sb b)
    (h' : Parsed src' us' e' sb' b') (ht : us'.map (·.tok) = us.map (·.tok)) : sb' = sb ∧ b' = b := by
  have h1 := h.chunk
  have h2 := h'.chunk
  rw [List.map_append, List.map_singleton, h'.eof, ht] at h2
  rw [List.map_append, List.map_singleton, h.eof, h2] at h1
  cases h1
  exact ⟨rfl, rfl⟩

end Luafmt
