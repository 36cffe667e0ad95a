/-
Specification: inputs for which the compatibility mode makes no difference to the text.
-/
import Verif.Spec.Sources

namespace AsmParser

/-- If both the compatibility mode and the filter `directives` are set, then no line shown is a data directive.  (Otherwise data
outside procedures may be removed.) -/
def NoLooseData [Recognizers] (f : Filter) (s : Str) : Prop :=
  f.compatmode = true → f.directives = true → ∀ t ∈ (scan f s).shown, ¬ StartsWithOneOf dataDirectives t

/-- It holds if not both are set. -/
theorem NoLooseData.of_not [Recognizers] {f : Filter} {s : Str} (h : ¬ (f.compatmode = true ∧ f.directives = true)) : NoLooseData f s :=
  fun a b => absurd ⟨a, b⟩ h

end AsmParser
