import Verif.Spec.Cli
import Verif.Spec.Options

/-
Specification of the complaints about the arguments of the command line.
-/
namespace Luafmt.Spec

/-- The argument is an assignment of a well-formed value to an option that exists, or one of the switches. -/
inductive Effective (a : Str) : Prop
  | assign {n v : Str} {x : Value} : Assigns a n v → Known n → Denotes (kindOf n) v x → Effective a
  | switch : a ∈ inplaceArgs ++ recursiveArgs ++ verboseArgs → Effective a

/-- The message that is due for an argument that is neither. -/
inductive Complaint (a : Str) : Msg → Prop
  | notAnOption : (∀ n v, ¬ Assigns a n v) → a ∉ inplaceArgs ++ recursiveArgs ++ verboseArgs →
      Complaint a (.unrecognizedOption a)
  | unknownName {n v : Str} : Assigns a n v → ¬ Known n → Complaint a (.invalidName n)
  | badValue {n v : Str} : Assigns a n v → Known n → (∀ x, ¬ Denotes (kindOf n) v x) → Complaint a (.invalidOption n v)

/-- The message that is due when the text `v` is given to the option `n`: there is no such option, or the value is not
well-formed. -/
inductive Fault (n v : Str) : Msg → Prop
  | unknownName : ¬ Known n → Fault n v (.invalidName n)
  | badValue : Known n → (∀ x, ¬ Denotes (kindOf n) v x) → Fault n v (.invalidOption n v)

/-- `Complaints args ms`: the messages due for the arguments are `ms`, in order, and no others. -/
inductive Complaints : List Str → List Msg → Prop
  | nil : Complaints [] []
  | fine {a : Str} {as : List Str} {ms : List Msg} : Effective a → Complaints as ms → Complaints (a :: as) ms
  | bad {a : Str} {as : List Str} {m : Msg} {ms : List Msg} : Complaint a m → Complaints as ms → Complaints (a :: as) (m :: ms)

/-- The message is about a file, a path or the standard input, not about an option. -/
def AboutFiles : Msg → Prop
  | .unrecognizedOption _ | .invalidName _ | .invalidOption _ _ => False
  | _ => True

end Luafmt.Spec
