/-
Specification: which lines a text-mode parser still holds.
-/
import Verif.Model.DebugJson

namespace AsmParser

/-- The parser still holds the line with this allocation number, as an output line or a removed line. -/
def Held (p : TParser) (i : Nat) : Prop := ∃ l ∈ p.lines ++ p.st.filteredLines, l.id = i

/-- What a view refers to still exists. -/
def View.Valid (v : View) (p : TParser) : Prop := ∀ i, v.own = some i → Held p i

end AsmParser
