import Verif.Proofs.Render
import Verif.Proofs.TileAll
import Verif.Spec.Program

/-
The tokens that are written for a derivation tree are those of a derivation tree for the same program.
-/
namespace Luafmt
open Spec

variable {c : Config}

mutual
/-- `Rw c x x'`: what formatting does to a derivation tree. -/
inductive Rw (c : Config) : C → C → Prop
  | tok {t : Token} : Rw c (.tok t) (.tok t)
  | node {tag : Tag} {cs cs' : List C} : tag.isFields = false → RwAll c cs cs' → Rw c (.node tag cs) (.node tag cs')
  | str {s : Str} : c.bool .convertCharstringToNormalstring = some true →
      Rw c (.node (.charStringLiteral s) [.tok (.charString s)])
        (.node (.normalStringLiteral (charToNormal s)) [.tok (.normalString (charToNormal s))])
  | fields {tag : Tag} {cs cs' : List C} : tag.isFields = true → RwFields c cs cs' → Rw c (.node tag cs) (.node tag cs')
inductive RwAll (c : Config) : List C → List C → Prop
  | nil : RwAll c [] []
  | cons {x x' : C} {xs xs' : List C} : Rw c x x' → RwAll c xs xs' → RwAll c (x :: xs) (x' :: xs')
inductive RwFields (c : Config) : List C → List C → Prop
  | none {x x' : C} : Rw c x x' → LastSeparator c [] [] → RwFields c [x] [x']
  | add {x x' : C} {sep : Token} : Rw c x x' → isFieldSep sep = true → LastSeparator c [] (spell sep) →
      RwFields c [x] [x', .tok sep]
  | drop {x x' : C} {t : Token} : Rw c x x' → isFieldSep t = true → LastSeparator c (spell t) [] →
      RwFields c [x, .tok t] [x']
  | keep {x x' : C} {t t' : Token} : Rw c x x' → isFieldSep t = true → isFieldSep t' = true →
      LastSeparator c (spell t) (spell t') → RwFields c [x, .tok t] [x', .tok t']
  | cons {x x' : C} {t t' : Token} {xs xs' : List C} : Rw c x x' → isFieldSep t = true → isFieldSep t' = true →
      Separator c (spell t) (spell t') → RwFields c xs xs' →
      RwFields c (x :: .tok t :: xs) (x' :: .tok t' :: xs')
end

/-! ### Rewritten trees are derivation trees -/

theorem prods_noChar {a : NT} {s : Str} {ss : List Sym} : (a, .charStringLiteral s, ss) ∉ prods := by
  intro hp
  have h2 : ∀ p ∈ prods, (match p.2.1 with | .charStringLiteral _ => false | _ => true) = true := by decide +kernel
  have := h2 _ hp
  cases this

theorem prods_fieldsSym {a : NT} {tag : Tag} {ss : List Sym} (hp : (a, tag, ss) ∈ prods) (hf : tag.isFields = true) :
    ss = [.sepEnd .field] := by
  have h2 : ∀ p ∈ prods, p.2.1.isFields = true → p.2.2 = [.sepEnd .field] := by decide +kernel
  exact h2 _ hp hf

theorem leafTag_fields {t : Token} {a : NT} {tag : Tag} (hl : leafTag t = some (a, tag)) : tag.isFields = false := by
  unfold leafTag at hl
  split at hl <;> cases hl <;> rfl

theorem RwFields.inv {x : C} {cs cs' : List C} (h : RwFields c (x :: cs) cs') :
    ∃ x' r, cs' = x' :: r ∧ Rw c x x' ∧
    ((cs = [] ∧ (r = [] ∨ ∃ s, r = [.tok s] ∧ isFieldSep s = true)) ∨
     (∃ t, cs = [.tok t] ∧ (r = [] ∨ ∃ s, r = [.tok s] ∧ isFieldSep s = true)) ∨
     (∃ t xs s r', cs = .tok t :: xs ∧ r = .tok s :: r' ∧ isFieldSep s = true ∧ RwFields c xs r')) := by
  generalize hz : x :: cs = zs at h
  cases h with
  | none hx _ => cases hz; exact ⟨_, _, rfl, hx, .inl ⟨rfl, .inl rfl⟩⟩
  | add hx hs _ => cases hz; exact ⟨_, _, rfl, hx, .inl ⟨rfl, .inr ⟨_, rfl, hs⟩⟩⟩
  | drop hx => cases hz; exact ⟨_, _, rfl, hx, .inr (.inl ⟨_, rfl, .inl rfl⟩)⟩
  | keep hx _ hs' => cases hz; exact ⟨_, _, rfl, hx, .inr (.inl ⟨_, rfl, .inr ⟨_, rfl, hs'⟩⟩)⟩
  | cons hx _ hs' _ hr => cases hz; exact ⟨_, _, rfl, hx, .inr (.inr ⟨_, _, _, _, rfl, rfl, hs', hr⟩)⟩

theorem RwFields.not_nil {cs' : List C} (h : RwFields c [] cs') : False := by cases h

theorem matches_nil {cs : List C} (h : Matches [] cs) : cs = [] := by cases h; rfl

theorem matches_sepEnd_nil {n : NT} {ss : List Sym} (h : Matches (.sepEnd n :: ss) []) : False := by cases h

mutual
theorem derives_rw : ∀ {n : NT} {x x' : C}, Derives n x → Rw c x x' → Derives n x'
  | _, _, _, .chain hc h, hr => .chain hc (derives_rw h hr)
  | _, _, _, .prod hp hm, hr => by
    cases hr with
    | node _ hall => exact .prod hp (matches_rw hm hall)
    | str _ => exact absurd hp prods_noChar
    | fields hf hfs => exact .prod hp (matches_fields hm (prods_fieldsSym hp hf) hfs)
  | _, _, _, .leaf hl, hr => by
    cases hr with
    | node _ hall =>
      cases hall with
      | cons h1 h2 =>
        cases h1
        cases h2
        exact .leaf hl
    | str _ =>
      cases hl
      exact .leaf rfl
    | fields hf _ => rw [leafTag_fields hl] at hf; cases hf
theorem matches_rw : ∀ {ss : List Sym} {cs cs' : List C}, Matches ss cs → RwAll c cs cs' → Matches ss cs'
  | _, _, _, .nil, hr => by cases hr; exact .nil
  | _, _, _, .t h, hr => by
    cases hr with
    | cons hx hr => cases hx; exact .t (matches_rw h hr)
  | _, _, _, .n hd h, hr => by
    cases hr with
    | cons hx hr => exact .n (derives_rw hd hx) (matches_rw h hr)
  | _, _, _, .listLast hd h, hr => by
    cases hr with
    | cons hx hr => exact .listLast (derives_rw hd hx) (matches_rw h hr)
  | _, _, _, .listCons hd h, hr => by
    cases hr with
    | cons hx hr => exact .listCons (derives_rw hd hx) (matches_rw h hr)
  | _, _, _, .sepLast hd h, hr => by
    cases hr with
    | cons hx hr => exact .sepLast (derives_rw hd hx) (matches_rw h hr)
  | _, _, _, .sepEndLast hd h, hr => by
    cases hr with
    | cons hx hr => exact .sepEndLast (derives_rw hd hx) (matches_rw h hr)
  | _, _, _, .sepCons hd h, hr => by
    cases hr with
    | cons hx hr =>
      cases hr with
      | cons ht hr => cases ht; exact .sepCons (derives_rw hd hx) (matches_rw h hr)
  | _, _, _, .sepEndTrail hd hs h, hr => by
    cases hr with
    | cons hx hr =>
      cases hr with
      | cons ht hr => cases ht; exact .sepEndTrail (derives_rw hd hx) hs (matches_rw h hr)
  | _, _, _, .sepEndCons hd hs h, hr => by
    cases hr with
    | cons hx hr =>
      cases hr with
      | cons ht hr => cases ht; exact .sepEndCons (derives_rw hd hx) hs (matches_rw h hr)
theorem matches_fields : ∀ {ss : List Sym} {cs cs' : List C}, Matches ss cs → ss = [.sepEnd .field] → RwFields c cs cs' →
    Matches ss cs'
  | _, _, _, .sepEndLast hd h, he, hr => by
    obtain ⟨x', r, rfl, hx, ⟨e, hq⟩ | ⟨t, e, hq⟩ | ⟨t, xs, s, r', e, _⟩⟩ := hr.inv
    · subst e
      rcases hq with rfl | ⟨s, rfl, hs⟩
      · exact .sepEndLast (derives_rw hd hx) h
      · exact .sepEndTrail (derives_rw hd hx) hs h
    · injection he with _ he
      rw [he] at h
      rw [matches_nil h] at e
      cases e
    · injection he with _ he
      rw [he] at h
      rw [matches_nil h] at e
      cases e
  | _, _, _, .sepEndTrail hd hs h, he, hr => by
    obtain ⟨x', r, rfl, hx, ⟨e, hq⟩ | ⟨t, e, hq⟩ | ⟨t, xs, s, r', e, _, _, hq⟩⟩ := hr.inv
    · cases e
    · injection e with _ e
      subst e
      rcases hq with rfl | ⟨s, rfl, hs⟩
      · exact .sepEndLast (derives_rw hd hx) h
      · exact .sepEndTrail (derives_rw hd hx) hs h
    · injection he with _ he
      rw [he] at h
      injection e with _ e
      rw [← e, matches_nil h] at hq
      exact hq.not_nil.elim
  | _, _, _, .sepEndCons hd hs h, he, hr => by
    obtain ⟨x', r, rfl, hx, ⟨e, hq⟩ | ⟨t, e, hq⟩ | ⟨t, xs, s, r', e, rfl, hs, hq⟩⟩ := hr.inv
    · cases e
    · injection e with _ e
      rw [e] at h
      exact (matches_sepEnd_nil h).elim
    · injection e with _ e
      rw [← e] at hq
      exact .sepEndCons (derives_rw hd hx) hs (matches_fields h he hq)
  | _, _, _, .nil, he, _ => by cases he
  | _, _, _, .t _, he, _ => by cases he
  | _, _, _, .n _ _, he, _ => by cases he
  | _, _, _, .listLast _ _, he, _ => by cases he
  | _, _, _, .listCons _ _, he, _ => by cases he
  | _, _, _, .sepLast _ _, he, _ => by cases he
  | _, _, _, .sepCons _ _, he, _ => by cases he
end

end Luafmt
