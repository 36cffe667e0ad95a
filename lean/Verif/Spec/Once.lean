/-
Specification: inputs in which no label is defined twice.
-/
import Verif.Spec.Chains

namespace AsmParser

/-- No label is defined by two lines. -/
def DefinedOnce (ts : List Seen) : Prop :=
  ∀ (i j : Nat) (t u : Seen) (a : Str), i < j → ts[i]? = some t → ts[j]? = some u → t.Defines a → ¬ u.Defines a

end AsmParser
