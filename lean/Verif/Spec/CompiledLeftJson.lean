/-
Specification: the JSON document for the assembly code that a compiler writes, after the removal of unused labels.
-/
import Verif.Spec.CompiledJson

namespace AsmParser

/-- The lines of the document for what is left of the lines `xs` of the program `all`, if the labels `x` are found in use; `s`, `pos` and
`sect` are the place, the source position and the section before the lines.  Positions and sections come from all lines, also from those
that are removed. -/
def rowsLeft (f : Filter) (all : List CLine) (x : Found) : Spot → Option (Nat × Nat × Nat) → Str → List CLine → List JVal
  | _, _, _, [] => []
  | s, pos, sect, l :: ls =>
    let s := s.after f.unusedLabels x l
    (if s.keeps f.unusedLabels f.compatmode x l then [rowJson f all (l.moves pos) (l.sectionAfter sect) ls l] else []) ++
      rowsLeft f all x s (l.moves pos) (l.sectionAfter sect) ls

/-- The document for the program, if the labels `x` are found in use: the labels are numbered among the lines that are left, and the
lines that are removed count as filtered. -/
def leftJson (f : Filter) (time : Int) (x : Found) (xs : List CLine) : JVal :=
  let left := leftOf f.unusedLabels f.compatmode x {} xs
  .obj [(b! "asm", .arr (rowsLeft f xs x {} none [] xs)), (b! "labelDefinitions", .obj (labelsJson 1 left)),
    (b! "parsingTime", .num time), (b! "filteredCount", .num ((xs.length : Int) - left.length))]

end AsmParser
