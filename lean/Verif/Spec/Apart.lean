/-
Specification: a line of a listing that is put behind another one.
-/
import Verif.Model.Types

namespace AsmParser

/-- The lines `l` and `l'` agree, except that `l'` has a source position or a section if `l` has none, and up to the address. -/
def Moved (l l' : AsmLine) : Prop :=
  l' = { l with source := l'.source, sect := l'.sect, address := l'.address } ∧ (l'.source = l.source ∨ l.source = {}) ∧
    (l'.sect = l.sect ∨ l.sect = [])

/-- The lists have the same length, and `P` holds for elements at the same place. -/
inductive Each {α β : Type} (P : α → β → Prop) : List α → List β → Prop
  | nil : Each P [] []
  | cons {a b as bs} : P a b → Each P as bs → Each P (a :: as) (b :: bs)

end AsmParser
