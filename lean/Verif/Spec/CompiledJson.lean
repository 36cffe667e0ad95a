/-
Specification: the JSON document for the assembly code that a compiler writes.
-/
import Verif.Spec.Compiled
import Verif.Spec.CompiledUse
import Verif.Spec.Columns
import Verif.Spec.Json

namespace AsmParser

/-- An instruction whose operands do not begin with `=`; nothing after `.cfi_endproc`. -/
def CLine.Tidy : CLine → Prop
  | .instr _ _ args => args.head? ≠ some c! '='
  | .block kw _ args => kw = b! ".cfi_endproc" → args = []
  | _ => True

/-- The section after the line. -/
def CLine.sectionAfter (sect : Str) : CLine → Str
  | .block kw _ args =>
    if kw = b! ".text" then b! "text" else if kw = b! ".data" then b! "data" else if kw = b! ".section" then sectionName args else sect
  | _ => sect

/-- The position of a label: `pos` is the one before it, and the lines follow it.  A `.loc` right after the label counts for it,
too; other internal labels and whatever is not shown may be in between. -/
def settlePos (pos : Option (Nat × Nat × Nat)) : List CLine → Option (Nat × Nat × Nat)
  | [] => pos
  | .loc _ i n c _ :: xs => settlePos (some (i, n, c.getD 0)) xs
  | .label a _ :: xs => if internalName a then settlePos pos xs else pos
  | .instr .. :: _ | .data .. :: _ => pos
  | _ :: xs => settlePos pos xs

instance (c : Byte) : Decidable (Letter c) := inferInstanceAs (Decidable (_ ∨ _))

/-- Positions are printed for labels that begin with a letter, or contain `.inst`. -/
def positioned (a : Str) : Bool := a.head?.any (fun c => decide (Letter c)) || occurs b! ".inst" a

/-- The source position that is printed for the line, if `pos` is the position after it and `rest` are the lines after it. -/
def CLine.position (all : List CLine) (pos : Option (Nat × Nat × Nat)) (rest : List CLine) : CLine → Option (Str × Int × Int)
  | .label a _ => if positioned a then positionShown all (settlePos pos rest) else none
  | _ => positionShown all pos

/-- The references of the line: the words in the operands of an instruction, or in data, that are labels of the program. -/
def CLine.references (all : List CLine) : CLine → List AsmLabel
  | .label .. => []
  | x => (referencesIn x.text).filter fun r => (labelNames all).contains r.name

/-- A source position: file, line and column. -/
def sourceJson (mask : Bool) : Option (Str × Int × Int) → JVal
  | none => .null
  | some (file, n, c) =>
    .obj ((if c = 0 then [] else [(b! "column", .num c)]) ++
      [(b! "file", optStr (shownFile mask file)),
       (b! "mainsource", .str (if file = [] ∨ MainFile file then b! "true" else b! "false")), (b! "line", .num n)])

/-- A line of the document. -/
def rowJson (f : Filter) (all : List CLine) (pos : Option (Nat × Nat × Nat)) (sect : Str) (rest : List CLine) (x : CLine) : JVal :=
  .obj ([(b! "labels", .arr ((x.references all).map refJson)),
      (b! "source", sourceJson (!f.dontMaskFilenames) (x.position all pos rest))] ++
    (if sect = [] ∨ f.compatmode = true then [] else [(b! "section", .str sect)]) ++
    [(b! "text", .str x.text)])

/-- The lines of the document for the lines `xs` of the program `all`, if `pos` and `sect` are the source position and the section
before them. -/
def rowsJson (f : Filter) (all : List CLine) : Option (Nat × Nat × Nat) → Str → List CLine → List JVal
  | _, _, [] => []
  | pos, sect, x :: xs =>
    (if x.shows then [rowJson f all (x.moves pos) (x.sectionAfter sect) xs x] else []) ++
      rowsJson f all (x.moves pos) (x.sectionAfter sect) xs

/-- The labels among the lines with their numbers, of which the first one is `n`. -/
def labelsJson (n : Nat) : List CLine → List (Str × JVal)
  | [] => []
  | .label a _ :: xs => (a, .num n) :: labelsJson (n + 1) xs
  | _ :: xs => labelsJson (n + 1) xs

/-- The document for the program. -/
def compiledJson (f : Filter) (time : Int) (xs : List CLine) : JVal :=
  let shown := xs.filter CLine.shows
  .obj [(b! "asm", .arr (rowsJson f xs none [] xs)), (b! "labelDefinitions", .obj (labelsJson 1 shown)),
    (b! "parsingTime", .num time), (b! "filteredCount", .num ((xs.length : Int) - shown.length))]

end AsmParser
