/-
Specification for C93: what empty lines may affect.
-/
import Verif.Spec.TextMode
import Verif.Model.AsmText

namespace AsmParser

/-- The lines that are not empty. -/
def inked (ls : List Str) : List Str := ls.filter (· ≠ [])

/-- The lines of the result that are not empty, labels without their source position. -/
def inkedLines (p : TParser) : List AsmLine :=
  ((p.lines.map TLine.toAsm).filter fun l => l.text ≠ []).map fun l => if l.isLabel then { l with source := {} } else l

/-- A line that looks like data but defines a label. -/
def DataLabel (f : Filter) (line : Str) : Prop :=
  ∃ t inl a, Shown f t inl line ∧ StartsWithOneOf dataDirectives t ∧ DefinesOrAssigns t a

end AsmParser
