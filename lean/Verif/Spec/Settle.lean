/-
Specification: which directive gives a label its source position.
-/
import Verif.Spec.Lines

namespace AsmParser

/-- The line defines an internal label. -/
def Seen.InternalLabel (t : Seen) : Prop := ∃ a, t.Defines a ∧ Internal a

/-- Nothing between the lines `k` and `j` keeps a directive in line `j` from giving its position to a label in line `k`: there is no
blank line between them, and of the lines between them only internal labels are kept. -/
def Reaches (f : Filter) (ts : List Seen) (gaps : List Nat) (k j : Nat) : Prop :=
  (∀ i, k < i → i ≤ j → i ∉ gaps) ∧ ∀ i t, k < i → i < j → ts[i]? = some t → t.Kept f → t.InternalLabel

/-- The line `j` gives its position to a label in line `k`: it comes later, it is a `.loc` or a `.d2line` and ends no block, and
nothing is in between. -/
def GivesPosition [Recognizers] (f : Filter) (s : Str) (k j : Nat) : Prop :=
  k < j ∧ (∃ t, (seen f s)[j]? = some t ∧ MovesLabels t.text ∧ ¬ t.Ends) ∧ Reaches f (seen f s) (scan f s).gaps k j

end AsmParser
