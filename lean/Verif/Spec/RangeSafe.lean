import Verif.Model.Formatter
import Verif.Spec.Selection

/-
The runs with a line range that the properties about the tokens of the output cover.
-/
namespace Luafmt.Spec

mutual
/-- The nodes of a tree. -/
def nodesOf : Node → List Node
  | .mk t s ls ks => .mk t s ls ks :: nodesOfAll ks
def nodesOfAll : List Node → List Node
  | [] => []
  | n :: ns => nodesOf n ++ nodesOfAll ns
end

/-- Neither `l` nor `r` lies strictly inside the place. -/
def Uncut (l r : Nat) (s : Loc) : Prop := ¬ (s.l < l ∧ l < s.r) ∧ ¬ (s.l < r ∧ r < s.r)

instance (l r : Nat) (s : Loc) : Decidable (Uncut l r s) := by unfold Uncut; infer_instance

/-- Behind each `--` of the text there is a newline. So the text does not end in a one-line comment without a newline;
a text whose last line is complete is like this. -/
def CommentsEnd (src : Str) : Prop := ∀ d t, src = d ++ '-' :: '-' :: t → '\n' ∈ t

/-- Either there is no line range, or: the source has only ASCII characters, it does not end in a one-line comment, and the
region that is formatted neither starts nor ends inside a call or an index behind parentheses, like `(f)(x)` or
`("a").b`. -/
def RangeSafe (c : Config) (src : Str) : Prop :=
  c.lineRange = none ∨
  ((∀ ch ∈ src, ch.utf8Size = 1) ∧ CommentsEnd src ∧
    ∀ tree l r, parseLua src = some tree → effectiveRange c src tree = .ok (some (l, r)) →
      ∀ n ∈ nodesOf tree, n.tag = .varRoundSuffix → Uncut l r n.span)

end Luafmt.Spec
