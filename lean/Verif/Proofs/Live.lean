import Verif.Proofs.GapWrite

/-
The printing of a gap never ends in an error, and it panics only if a configuration string ends in a
character of several bytes, or if there is a range and the source has such characters. `S` is the
condition under which a panic is excluded.
-/
namespace Luafmt
open Spec

variable {S : Prop} {c : Config}

/-- The result is not an error, it is a panic only if `S` fails, and a value has the property `Q`. -/
def OkOr {α : Type} (S : Prop) (Q : α → Prop) : Res α → Prop
  | .ok x => Q x
  | .err => False
  | .panic => ¬ S

theorem OkOr.bind {α β : Type} {Q : α → Prop} {Q' : β → Prop} {r : Res α} {k : α → Res β} (h : OkOr S Q r)
    (hk : ∀ x, Q x → OkOr S Q' (k x)) : OkOr S Q' (r >>= k) := by
  cases r with
  | ok x => exact hk x h
  | err => exact h
  | panic => exact h

theorem OkOr.imp {α : Type} {Q Q' : α → Prop} {r : Res α} (h : OkOr S Q r) (hq : ∀ x, Q x → Q' x) : OkOr S Q' r := by
  cases r with
  | ok x => exact hq x h
  | err => exact h
  | panic => exact h

theorem OkOr.pure {α : Type} {Q : α → Prop} {x : α} (h : Q x) : OkOr S Q (Pure.pure x) := h

theorem OkOr.ite {α : Type} {Q : α → Prop} {p : Prop} [Decidable p] {a b : Res α} (h1 : OkOr S Q a) (h2 : OkOr S Q b) :
    OkOr S Q (if p then a else b) := by
  split
  · exact h1
  · exact h2

/-- A text that does not end in a character of several bytes. -/
def EndOk (f : Str) : Prop := ∀ ch, f.getLast? = some ch → ch.utf8Size = 1

/-- A text without characters of several bytes. -/
def OneByte (f : Str) : Prop := ∀ ch ∈ f, ch.utf8Size = 1

theorem EndOk.nil : EndOk [] := fun _ h => nomatch h

theorem OneByte.endOk {f : Str} (h : OneByte f) : EndOk f := fun ch hc => h ch (List.mem_of_getLast? hc)

theorem OneByte.append {f g : Str} (hf : OneByte f) (hg : OneByte g) : OneByte (f ++ g) := by
  intro ch hc
  rcases List.mem_append.mp hc with h | h
  · exact hf ch h
  · exact hg ch h

theorem EndOk.append {f g : Str} (hf : EndOk f) (hg : EndOk g) : EndOk (f ++ g) := by
  intro ch hc
  rw [List.getLast?_append] at hc
  cases hl : g.getLast? with
  | none => rw [hl] at hc; exact hf ch hc
  | some x => rw [hl] at hc; cases hc; exact hg _ hl

theorem EndOk.last {f g : Str} {x : Char} (hx : x.utf8Size = 1) (hg : g.getLast? = some x) : EndOk (f ++ g) := by
  intro ch hc
  rw [List.getLast?_append, hg] at hc
  cases hc
  exact hx

theorem EndOk.single {x : Char} (hx : x.utf8Size = 1) : EndOk [x] := by
  intro ch hc
  cases hc
  exact hx

theorem EndOk.spaces {y : Str} (h : ∀ ch ∈ y, IsSpace ch) : EndOk y := by
  intro ch hc
  rcases h ch (List.mem_of_getLast? hc) with rfl | rfl | rfl <;> decide

/-- The configuration strings do not end in a character of several bytes. -/
def StrsOk (c : Config) : Prop := ∀ o s, c.str o = some s → EndOk s

theorem StrsOk.getD (h : StrsOk c) (o : SOpt) : EndOk ((c.str o).getD []) := by
  cases hs : c.str o with
  | none => exact .nil
  | some s => exact h o s hs

theorem StrsOk.indent (h : StrsOk c) (lvl : Int) : EndOk (indentText c lvl) := by
  unfold indentText
  cases hs : c.str .indentationString with
  | none => exact .nil
  | some s =>
    simp only
    generalize lvl.toNat = n
    induction n with
    | zero => exact .nil
    | succ n ih =>
      rw [List.replicate_succ, List.flatten_cons]
      exact (h _ s hs).append ih

/-! ### Newlines -/

/-- The writer appends a text that ends well. -/
def Appends (S : Prop) (f : Str) (r : Str) : Prop := ∃ K, r = f ++ K ∧ (S → EndOk K)

/-- What is known about the text after a step: it ends well, and its first character is the same. -/
def Keeps (S : Prop) (f : Str) (r : Str) : Prop := (S → EndOk r) ∧ ∀ x g, f = x :: g → ∃ g', r = x :: g'

theorem Keeps.refl {f : Str} (h : S → EndOk f) : Keeps S f f := ⟨h, fun _ g e => ⟨g, e⟩⟩

theorem Keeps.trans {f g h : Str} (a : Keeps S f g) (b : Keeps S g h) : Keeps S f h :=
  ⟨b.1, fun x y e => by obtain ⟨y', e'⟩ := a.2 x y e; exact b.2 x y' e'⟩

theorem Appends.keeps {f r : Str} (hf : S → EndOk f) (h : Appends S f r) : Keeps S f r := by
  obtain ⟨K, rfl, hK⟩ := h
  exact ⟨fun s => (hf s).append (hK s), fun x g e => ⟨g ++ K, by rw [e]; rfl⟩⟩

theorem ifNewLine_live (hc : S → StrsOk c) {lvl : Int} {b : Bool} {w : Str → Str → Res Str} {h f : Str}
    (hw : ∀ h f, (S → EndOk h) → (S → EndOk f) → OkOr S (Appends S f) (w h f)) (hh : S → EndOk h) (hf : S → EndOk f) :
    OkOr S (Keeps S f) (ifNewLine c lvl b w h f) := by
  unfold ifNewLine
  split
  · refine (hw [] [] (fun _ => .nil) (fun _ => .nil)).bind fun block _ => ?_
    refine OkOr.pure ?_
    have nl : ∀ g : Str, (∀ x y, f = x :: y → ∃ y', g = x :: y') → Keeps S f (g ++ ['\n'] ++ indentText c lvl) := by
      intro g hg
      refine ⟨fun s => ?_, fun x y e => ?_⟩
      · exact EndOk.append (EndOk.last (x := '\n') (by decide) rfl) ((hc s).indent lvl)
      · obtain ⟨y', e'⟩ := hg x y e
        exact ⟨_, by rw [e']; rfl⟩
    have nl' : ∀ g : Str, g.getLast? = some '\n' → (∀ x y, f = x :: y → ∃ y', g = x :: y') → Keeps S f (g ++ indentText c lvl) := by
      intro g hl hg
      refine ⟨fun s => ?_, fun x y e => ?_⟩
      · refine EndOk.append ?_ ((hc s).indent lvl)
        intro ch hch
        rw [hl] at hch
        cases hch
        decide
      · obtain ⟨y', e'⟩ := hg x y e
        exact ⟨_, by rw [e']; rfl⟩
    dsimp only
    split
    · split
      · next hl =>
        refine nl' _ ?_ (fun x y e => ⟨_, by rw [e]; rfl⟩)
        rw [List.getLast?_append, hl]
        rfl
      · exact nl _ (fun x y e => ⟨_, by rw [e]; rfl⟩)
    · generalize hf' : (if 1 < byteLen f ∧ (f.getLast? = some ' ' ∨ f.getLast? = some '\t') then f.dropLast else f) = f'
      have hk : ∀ x y, f = x :: y → ∃ y', f' = x :: y' := by
        intro x y e
        subst hf'
        split
        · next hcond =>
          subst e
          cases y with
          | nil =>
            obtain ⟨h1, h2⟩ := hcond
            rcases h2 with h2 | h2 <;> cases h2 <;> exact absurd h1 (by decide)
          | cons z y => exact ⟨_, rfl⟩
        · exact ⟨y, e⟩
      split
      · next hl => exact nl' f' hl hk
      · exact nl f' hk
  · exact (hw h f hh hf).imp fun r hr => hr.keeps hf

/-! ### The comment printer -/

/-- The comment printer works on a gap of the source. -/
structure CLive (S : Prop) (e : CEnv) : Prop where
  buf : ∃ a b, e.off = a.length ∧ e.env.buf = a ++ (e.cbuf ++ b)
  range : S → (e.env.posRange = none ∧ e.range = none) ∨ OneByte e.env.buf

/-- A location inside the gap and its text. -/
def At (e : CEnv) (l : Loc) (y : Str) : Prop := ∃ x z, e.cbuf = x ++ (y ++ z) ∧ l = ⟨x.length, x.length + y.length⟩

theorem CLive.put {e : CEnv} (he : CLive S e) {l : Loc} {y f : Str} (h : At e l y) : e.put l f = .ok (f ++ y) := by
  obtain ⟨a, b, h1, h2⟩ := he.buf
  obtain ⟨x, z, h, rfl⟩ := h
  have := substr_mid e.env.buf (a := a) (x := x) (y := y) (w := z ++ b) (z := z) (by rw [h2, h]; simp)
  simp only [CEnv.put, h1, h, this, Res.bind_ok, Res.pure_eq]

theorem CLive.oneByte {e : CEnv} (he : CLive S e) {l : Loc} {y : Str} (h : At e l y) (hb : OneByte e.env.buf) : OneByte y := by
  obtain ⟨a, b, h1, h2⟩ := he.buf
  obtain ⟨x, z, h, rfl⟩ := h
  intro ch hc
  refine hb ch ?_
  rw [h2, h]
  simp [hc]

/-- Copying a piece because it is out of range. -/
theorem CLive.putOut {e : CEnv} (he : CLive S e) {l l' : Loc} {y f : Str} (h : At e l y) (ho : outOfRange e.range l' = true) :
    OkOr S (Appends S f) (e.put l f) := by
  rw [he.put h]
  refine ⟨y, rfl, fun s => ?_⟩
  rcases he.range s with ⟨_, h2⟩ | h2
  · rw [h2] at ho; cases ho
  · exact (he.oneByte h h2).endOk

theorem spaceHint_live {e : CEnv} (he : CLive S e) {l : Loc} {y f h : Str} (hl : At e l y) (hy : ∀ ch ∈ y, IsSpace ch)
    (hh : S → EndOk h) : OkOr S (Appends S f) (spaceHint e c l h f) := by
  unfold spaceHint
  split
  · next ho => exact he.putOut hl ho
  · split
    · exact ⟨h, rfl, hh⟩
    · rw [he.put hl]
      exact ⟨y, rfl, fun _ => .spaces hy⟩

theorem ctokText_end (t : CTok) : EndOk (ctokText c t) := by
  unfold ctokText
  cases t with
  | newLine =>
    simp only
    split
    · exact .nil
    · exact .single (by decide)
  | oneLine s =>
    simp only
    split
    · split
      · exact .nil
      · exact .single (by decide)
    · split
      · split
        · intro ch h; cases h; decide
        · exact EndOk.last (x := '\n') (by decide) rfl
      · exact EndOk.last (x := '\n') (by decide) rfl
  | multiLine n s =>
    simp only
    split
    · exact .nil
    · exact EndOk.last (x := ']') (by decide) rfl

theorem ctokWrite_live {e : CEnv} (he : CLive S e) {t : CTokL} {u f : Str} (ht : At e ⟨t.l, t.r⟩ u) :
    OkOr S (Appends S f) (ctokWrite e c t f) := by
  unfold ctokWrite
  split
  · next ho => exact he.putOut ht ho
  · exact ⟨_, rfl, fun _ => ctokText_end _⟩

theorem oneByte_len {s : Str} (h : OneByte s) : byteLen s = s.length := by
  induction s with
  | nil => rfl
  | cons x s ih =>
    simp only [byteLen, List.length_cons]
    rw [ih fun ch hc => h ch (List.mem_cons_of_mem _ hc), h x List.mem_cons_self]
    omega

/-- The slice of the gap that `cfg_write_list` takes with offset 0 is the right one if all characters have one
byte. -/
theorem substr_gap0 {e : CEnv} (he : CLive S e) {l : Loc} {y : Str} (hl : At e l y) (hb : OneByte e.env.buf) :
    substr e.env.buf l e.cbuf 0 = .ok y ∨ substr e.env.buf l e.cbuf 0 = .ok [] := by
  obtain ⟨a, b, h1, h2⟩ := he.buf
  obtain ⟨x, z, h, rfl⟩ := hl
  have hx : OneByte x := fun ch hc => hb ch (by rw [h2, h]; simp [hc])
  have hy : OneByte y := fun ch hc => hb ch (by rw [h2, h]; simp [hc])
  unfold substr
  have key : ∀ n, n ≤ e.env.buf.length → e.env.buf ≠ [] → charToByte e.env.buf n = some n := by
    intro n hn hne
    have := charToByte_at (a := e.env.buf.take n) (b := e.env.buf.drop n) (by rw [List.take_append_drop]; exact hne)
    rw [List.take_append_drop, List.length_take, Nat.min_eq_left hn] at this
    rw [this, oneByte_len (fun ch hc => hb ch (List.mem_of_mem_take hc)), List.length_take, Nat.min_eq_left hn]
  by_cases hne : e.env.buf = []
  · right
    rw [hne]
    simp [charToByte]
  · left
    have hlen : x.length + y.length ≤ e.env.buf.length := by rw [h2, h]; simp; omega
    simp only [Nat.add_zero, key _ hlen hne, key x.length (by omega) hne, key 0 (by omega) hne, Nat.zero_le, and_self,
      if_true, Nat.sub_zero]
    have := sliceBytes_mid x y z
    rw [oneByte_len hx, oneByte_len hy, ← h] at this
    rw [this]

theorem substr_noErr (src : Str) (l : Loc) (buf : Str) (o : Nat) : substr src l buf o ≠ .err := by
  unfold substr
  split
  · split
    · split <;> simp
    · simp
  · simp

theorem cgap_live (hc : S → StrsOk c) {e : CEnv} (he : CLive S e) {l : Loc} {y f h : Str} {nl : Bool} (hl : At e l y)
    (hy : ∀ ch ∈ y, IsSpace ch) (hh : S → EndOk h) (hf : S → EndOk f) : OkOr S (Keeps S f) (cgap e c nl l h f) := by
  unfold cgap
  split
  · next ho =>
    have hs : S → substr e.env.buf l e.cbuf 0 = .ok y ∨ substr e.env.buf l e.cbuf 0 = .ok [] := by
      intro s
      rcases he.range s with ⟨h1, _⟩ | h1
      · rw [h1] at ho; cases ho
      · exact substr_gap0 he hl h1
    cases hr : substr e.env.buf l e.cbuf 0 with
    | err => exact absurd hr (substr_noErr _ _ _ _)
    | panic =>
      intro s
      rcases hs s with h | h <;> rw [hr] at h <;> cases h
    | ok z =>
      refine Appends.keeps hf ⟨z, rfl, fun s => ?_⟩
      rcases hs s with h | h <;> rw [hr] at h <;> cases h
      · exact .spaces hy
      · exact .nil
  · exact ifNewLine_live hc (fun h f hh _ => spaceHint_live he hl hy hh) hh hf

theorem ctokHint_end (hc : StrsOk c) (t : CTok) : EndOk (ctokHint c t) := by
  cases t
  case newLine => exact .nil
  all_goals exact hc.getD _

/-- The tokens from position `p` of the gap. -/
def CFrom (e : CEnv) (p : Nat) (ts : List CTokL) : Prop :=
  ∃ pre suf, e.cbuf = pre ++ suf ∧ pre.length = p ∧ CTiles p suf ts

theorem CFrom.split {e : CEnv} {t : CTokL} {ts : List CTokL} {p : Nat} (h : CFrom e p (t :: ts)) :
    ∃ b u, At e ⟨p, t.l⟩ b ∧ (∀ ch ∈ b, IsSpace ch) ∧ At e ⟨t.l, t.r⟩ u ∧ CFrom e t.r ts ∧ CFrom e t.l (t :: ts) := by
  obtain ⟨pre, suf, h1, h2, h3⟩ := h
  cases h3 with
  | @cons _ b u s _ _ k1 k2 k3 k4 k5 =>
    refine ⟨b, u, ⟨pre, u ++ s, h1, by rw [h2, k3]⟩, k1, ⟨pre ++ b, s, by simp [h1], ?_⟩, ?_, ?_⟩
    · simp only [List.length_append, h2, ← k3, k4]
    · exact ⟨pre ++ b ++ u, s, by simp [h1], by simp [h2, k4, k3]; omega, k5⟩
    · refine ⟨pre ++ b, u ++ s, by simp [h1], by simp [h2, k3], ?_⟩
      have := CTiles.cons (p := t.l) (b := []) (by simp) k2 (by simp) k4 k5
      simpa using this

/-- The text from a position to the end of some tokens. -/
theorem CFrom.upto {e : CEnv} {ts more : List CTokL} : ∀ {p : Nat}, CFrom e p (ts ++ more) →
    (∃ y, At e ⟨p, cendFrom p ts⟩ y) ∧ CFrom e (cendFrom p ts) more := by
  induction ts with
  | nil =>
    intro p h
    refine ⟨?_, h⟩
    obtain ⟨pre, suf, h1, h2, _⟩ := h
    exact ⟨[], pre, suf, by simpa using h1, by simp [cendFrom, h2]⟩
  | cons t ts ih =>
    intro p h
    obtain ⟨b, u, ⟨x1, z1, e1, l1⟩, _, ⟨x2, z2, e2, l2⟩, h2, _⟩ := CFrom.split h
    obtain ⟨⟨y, x3, z3, e3, l3⟩, h4⟩ := ih h2
    refine ⟨?_, h4⟩
    injection l1 with l1 l1'
    injection l2 with l2 l2'
    injection l3 with l3 l3'
    refine ⟨b ++ u ++ y, x1, z3, ?_, ?_⟩
    · have hx : x2 = x1 ++ b := by
        have : x2.length = (x1 ++ b).length := by simp; omega
        have e : x2 ++ (u ++ z2) = (x1 ++ b) ++ z1 := by rw [← e2, e1]; simp
        exact (List.append_inj e this).1
      have hx3 : x3 = x1 ++ b ++ u := by
        have : x3.length = (x1 ++ b ++ u).length := by rw [← hx]; simp; omega
        have e : x3 ++ (y ++ z3) = (x1 ++ b ++ u) ++ z2 := by rw [← e3, e2, hx]; simp
        exact (List.append_inj e this).1
      rw [e3, hx3]; simp
    · simp only [cendFrom, List.length_append]
      rw [l1]
      congr 1
      omega

theorem crunRest_live (hc : S → StrsOk c) {e : CEnv} (he : CLive S e) {k : Bool} {more : List CTokL} {ts : List CTokL} :
    ∀ {p : Nat} {f : Str}, CFrom e p (ts ++ more) → (S → EndOk f) →
      OkOr S (Keeps S f) (crunRest e c k (crunItems (some p) ts) f) := by
  induction ts with
  | nil => intro p f _ hf; exact Keeps.refl hf
  | cons t ts ih =>
    intro p f h hf
    obtain ⟨b, u, hg, hb, hu, h2, _⟩ := CFrom.split h
    simp only [crunItems, crunRest]
    refine (cgap_live hc he hg hb (fun s => ctokHint_end (hc s) _) hf).bind fun f1 k1 => ?_
    refine (ctokWrite_live he hu).bind fun f2 k2 => ?_
    have k2 := k2.keeps k1.1
    exact (ih h2 k2.1).imp fun r k3 => (k1.trans k2).trans k3

theorem crunWrite_live (hc : S → StrsOk c) {e : CEnv} (he : CLive S e) {k : Bool} {more : List CTokL} {t : CTokL} {ts : List CTokL}
    {f : Str} (h : CFrom e t.l (t :: ts ++ more)) (hf : S → EndOk f) :
    OkOr S (Keeps S f) (crunWrite e c ⟨⟨t.l, crunEnd (t :: ts)⟩, k, crunItems none (t :: ts)⟩ f) := by
  unfold crunWrite
  obtain ⟨⟨y, hy⟩, _⟩ := h.upto
  rw [show cendFrom t.l (t :: ts) = crunEnd (t :: ts) from (crunEnd_eq t ts).symm] at hy
  split
  · next ho => exact (he.putOut hy ho).imp fun r k => k.keeps hf
  · obtain ⟨b, u, hg, hb, hu, h2, _⟩ := CFrom.split h
    simp only [crunItems]
    refine (ifNewLine_live hc (b := false) (fun h f hh _ => spaceHint_live he hg hb hh) (fun _ => .nil) hf).bind fun f1 k1 => ?_
    refine (ctokWrite_live he hu).bind fun f2 k2 => ?_
    have k2 := k2.keeps k1.1
    exact (crunRest_live hc he h2 k2.1).imp fun r k3 => (k1.trans k2).trans k3

theorem cvariantRest_live (hc : S → StrsOk c) {e : CEnv} (he : CLive S e) {gs : List (Bool × List CTokL)} :
    ∀ {p : Nat} {f : Str}, Groups gs → CFrom e p (gs.flatMap (·.2)) → (S → EndOk f) →
      OkOr S (Keeps S f) (cvariantRest e c (cvariant (some p) gs) f) := by
  induction gs with
  | nil => intro p f _ _ hf; exact Keeps.refl hf
  | cons q gs ih =>
    intro p f hg h hf
    obtain ⟨k, q⟩ := q
    obtain ⟨t, ts, rfl⟩ := List.exists_cons_of_ne_nil (hg (k, q) (by simp)).1
    simp only [cvariant, crunStart, cvariantRest]
    simp only [List.flatMap_cons] at h
    obtain ⟨b, u, hgp, hb, hu, h2, h3⟩ := CFrom.split h
    refine (cgap_live hc he hgp hb (fun _ => .nil) hf).bind fun f1 k1 => ?_
    refine (crunWrite_live hc he (more := gs.flatMap (·.2)) h3 k1.1).bind fun f2 k2 => ?_
    have h4 := (CFrom.upto (ts := t :: ts) h3).2
    rw [show cendFrom t.l (t :: ts) = crunEnd (t :: ts) from (crunEnd_eq t ts).symm] at h4
    exact (ih (fun g hx => hg g (by simp [hx])) h4 k2.1).imp fun r k3 => (k1.trans k2).trans k3

theorem cvariantWrite_live (hc : S → StrsOk c) {e : CEnv} (he : CLive S e) {t : CTokL} {ts : List CTokL} {locl locr : Loc}
    {f : Str} (h : CFrom e t.l (t :: ts)) (hf : S → EndOk f) :
    OkOr S (Keeps S f) (cvariantWrite e c ⟨locl, ⟨t.l, crunEnd (t :: ts)⟩, cvariant none (cgroup (t :: ts)), locr⟩ f) := by
  unfold cvariantWrite
  have h' : CFrom e t.l (t :: ts ++ []) := by simpa using h
  obtain ⟨⟨y, hy⟩, _⟩ := h'.upto
  rw [show cendFrom t.l (t :: ts) = crunEnd (t :: ts) from (crunEnd_eq t ts).symm] at hy
  split
  · next ho => exact (he.putOut hy ho).imp fun r k => k.keeps hf
  · obtain ⟨hg, hf2⟩ := cgroup_ok (t :: ts)
    generalize cgroup (t :: ts) = gs at hg hf2
    cases gs with
    | nil => simp at hf2
    | cons q gs =>
      obtain ⟨k, q⟩ := q
      obtain ⟨t', ts', rfl⟩ := List.exists_cons_of_ne_nil (hg (k, q) (by simp)).1
      simp only [List.flatMap_cons, List.cons_append, List.cons.injEq] at hf2
      obtain ⟨rfl, hf2⟩ := hf2
      simp only [cvariant, crunStart]
      have h3 : CFrom e t'.l (t' :: ts' ++ gs.flatMap (·.2)) := by
        rw [List.cons_append, hf2]; exact h
      have hz : At e ⟨t'.l, t'.l⟩ [] := by
        obtain ⟨pre, suf, e1, e2, _⟩ := h
        exact ⟨pre, suf, by simpa using e1, by simp [e2]⟩
      have main : ∀ nl, OkOr S (Keeps S f) (do
          let f ← ifNewLine c e.lvl nl (spaceHint e c ⟨t'.l, t'.l⟩) [] f
          let f ← crunWrite e c ⟨⟨t'.l, crunEnd (t' :: ts')⟩, k, crunItems none (t' :: ts')⟩ f
          cvariantRest e c (cvariant (some (crunEnd (t' :: ts'))) gs) f) := by
        intro nl
        refine (ifNewLine_live hc (fun h f hh _ => spaceHint_live he hz (fun _ h => nomatch h) hh) (fun _ => .nil) hf).bind fun f1 k1 => ?_
        refine (crunWrite_live hc he (more := gs.flatMap (·.2)) h3 k1.1).bind fun f2 k2 => ?_
        have h4 := (CFrom.upto (ts := t' :: ts') h3).2
        rw [show cendFrom t'.l (t' :: ts') = crunEnd (t' :: ts') from (crunEnd_eq t' ts').symm] at h4
        exact (cvariantRest_live hc he (fun g hx => hg g (by simp [hx])) h4 k2.1).imp fun r k3 => (k1.trans k2).trans k3
      exact OkOr.ite (Keeps.refl hf) (main _)

theorem cchunkWrite_live (hc : S → StrsOk c) {e : CEnv} (he : CLive S e) (hg : FinalGap e.cbuf) {f : Str} (hf : S → EndOk f) :
    ∃ ch, parseComment e.cbuf = some ch ∧ OkOr S (Keeps S f) (cchunkWrite e c ch f) := by
  obtain ⟨ts, h1, h2, _⟩ := clex_gap hg
  unfold parseComment
  rw [h1]
  have hall : At e ⟨0, e.cbuf.length⟩ e.cbuf := ⟨[], [], by simp, by simp⟩
  cases ts with
  | nil =>
    refine ⟨_, rfl, ?_⟩
    have hsp : ∀ ch ∈ e.cbuf, IsSpace ch := by
      generalize e.cbuf = s at h2
      cases h2
      assumption
    have hend : At e ⟨e.cbuf.length, e.cbuf.length⟩ [] := ⟨e.cbuf, [], by simp, by simp⟩
    unfold cchunkWrite
    dsimp only
    split
    · next ho => exact (he.putOut hall ho).imp fun r k => k.keeps hf
    · refine (spaceHint_live he hall hsp (fun _ => .nil)).bind fun f1 k1 => ?_
      have k1 := k1.keeps hf
      have hv : OkOr S (Keeps S f1) (cvariantWrite e c ⟨⟨0, e.cbuf.length⟩, ⟨e.cbuf.length, e.cbuf.length⟩, [], ⟨e.cbuf.length, e.cbuf.length⟩⟩ f1) := by
        unfold cvariantWrite
        dsimp only
        split
        · next ho => exact (he.putOut hend ho).imp fun r k => k.keeps k1.1
        · split <;> exact Keeps.refl k1.1
      refine hv.bind fun f2 k2 => ?_
      exact (spaceHint_live he hend (fun _ h => nomatch h) (fun _ => .nil)).imp fun r k3 => (k1.trans k2).trans (k3.keeps k2.1)
  | cons t ts =>
    refine ⟨_, rfl, ?_⟩
    have h0 : CFrom e 0 (t :: ts) := ⟨[], e.cbuf, by simp, rfl, h2⟩
    obtain ⟨b, u, hgp, hb, hu, h3, h4⟩ := CFrom.split h0
    have h4' : CFrom e t.l (t :: ts ++ []) := by simpa using h4
    have h5 := h4'.upto.2
    rw [show cendFrom t.l (t :: ts) = crunEnd (t :: ts) from (crunEnd_eq t ts).symm] at h5
    have hlast : ∃ z, At e ⟨crunEnd (t :: ts), e.cbuf.length⟩ z ∧ ∀ ch ∈ z, IsSpace ch := by
      obtain ⟨pre, suf, e1, e2, e3⟩ := h5
      cases e3 with
      | nil hs => exact ⟨suf, ⟨pre, [], by simp [e1], by simp [e1, e2]⟩, hs⟩
    obtain ⟨z, hz, hzs⟩ := hlast
    unfold cchunkWrite
    dsimp only
    split
    · next ho => exact (he.putOut hall ho).imp fun r k => k.keeps hf
    · refine (spaceHint_live he hgp hb (fun _ => .nil)).bind fun f1 k1 => ?_
      have k1 := k1.keeps hf
      refine (cvariantWrite_live hc he h4 k1.1).bind fun f2 k2 => ?_
      exact (spaceHint_live he hz hzs (fun _ => .nil)).imp fun r k3 => (k1.trans k2).trans (k3.keeps k2.1)

theorem commentBlockText_end (hc : StrsOk c) {h block : Str} (hh : EndOk h) (hb : EndOk block) : EndOk (commentBlockText c h block) := by
  unfold commentBlockText
  split
  · split
    · exact hh
    · exact .nil
  · refine EndOk.append (EndOk.append ?_ hb) ?_
    · split
      · exact hc.getD _
      · exact .nil
    · split
      · exact hc.getD _
      · exact .nil

/-- A gap of the source. -/
def GapAt (env : Env) (l : Loc) : Prop :=
  ∃ a g b, env.buf = a ++ (g ++ b) ∧ l = ⟨a.length, a.length + g.length⟩ ∧ FinalGap g

/-- The condition on the range. -/
def RangeOk (env : Env) : Prop := env.posRange = none ∨ OneByte env.buf

theorem commentHint_live (hc : S → StrsOk c) {env : Env} (hr : S → RangeOk env) {l : Loc} (hl : GapAt env l) {lvl : Int}
    {h f : Str} (hh : S → EndOk h) (hf : S → EndOk f) : OkOr S (Appends S f) (commentHint env c lvl l h f) := by
  obtain ⟨a, g, b, h1, rfl, hg⟩ := hl
  unfold commentHint
  rw [substr_src h1]
  split
  · next ho =>
    refine ⟨g, rfl, fun s => ?_⟩
    rcases hr s with hr | hr
    · rw [hr] at ho; cases ho
    · exact OneByte.endOk fun ch hc => hr ch (by rw [h1]; simp [hc])
  · simp only [Res.bind_ok]
    have he : CLive S ⟨env, g, a.length, commentRange env.posRange a.length, lvl⟩ := by
      refine ⟨⟨a, b, rfl, h1⟩, fun s => ?_⟩
      rcases hr s with hr | hr
      · exact .inl ⟨hr, by simp [hr, commentRange]⟩
      · exact .inr hr
    have hx : S → (f.getLast?.getD ' ').utf8Size = 1 := by
      intro s
      cases hl : f.getLast? with
      | none => decide
      | some x => exact hf s x hl
    obtain ⟨ch, e1, e2⟩ := cchunkWrite_live hc he hg (f := [f.getLast?.getD ' ']) (fun s => .single (hx s))
    rw [e1]
    refine e2.bind fun full k => ?_
    obtain ⟨k1, k2⟩ := k
    obtain ⟨blk, rfl⟩ := k2 _ _ rfl
    split
    · next hd =>
      intro s
      have := dropBytes_byteLen [f.getLast?.getD ' '] blk
      simp only [byteLen, hx s, Nat.add_zero, List.singleton_append] at this
      rw [this] at hd
      cases hd
    · next block hd =>
      refine ⟨_, rfl, fun s => ?_⟩
      have := dropBytes_byteLen [f.getLast?.getD ' '] blk
      simp only [byteLen, hx s, Nat.add_zero, List.singleton_append] at this
      rw [this] at hd
      cases hd
      refine commentBlockText_end (hc s) (hh s) ?_
      have := k1 s
      intro ch hch
      refine this ch ?_
      rw [List.getLast?_cons, hch]
      rfl

end Luafmt
