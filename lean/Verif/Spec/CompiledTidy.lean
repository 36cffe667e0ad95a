/-
Specification: the JSON document for the assembly code that a compiler writes, with the filter for white space.
-/
import Verif.Spec.CompiledLeftJson
import Verif.Spec.Tidied
import Verif.Spec.Remarks

namespace AsmParser

/-- The references of the line, with their columns in the tidied text `g x.text`. -/
def CLine.referencesIn (g : Str → Str) (all : List CLine) : CLine → List AsmLabel
  | .label .. => []
  | x => (AsmParser.referencesIn (g x.text)).filter fun r => (labelNames all).contains r.name

/-- A line of the document.  Only the text and the columns are different. -/
def rowTidy (g : Str → Str) (f : Filter) (all : List CLine) (pos : Option (Nat × Nat × Nat)) (sect : Str) (rest : List CLine) (x : CLine) : JVal :=
  .obj ([(b! "labels", .arr ((x.referencesIn g all).map refJson)),
      (b! "source", sourceJson (!f.dontMaskFilenames) (x.position all pos rest))] ++
    (if sect = [] ∨ f.compatmode = true then [] else [(b! "section", .str sect)]) ++
    [(b! "text", .str (g x.text))])

/-- The lines of the document, as `rowsLeft`. -/
def rowsTidy (g : Str → Str) (f : Filter) (all : List CLine) (x : Found) : Spot → Option (Nat × Nat × Nat) → Str → List CLine → List JVal
  | _, _, _, [] => []
  | s, pos, sect, l :: ls =>
    let s := s.after f.unusedLabels x l
    (if s.keeps f.unusedLabels f.compatmode x l then [rowTidy g f all (l.moves pos) (l.sectionAfter sect) ls l] else []) ++
      rowsTidy g f all x s (l.moves pos) (l.sectionAfter sect) ls

/-- The document for the program, if the labels `x` are found in use and texts are tidied by `g`. -/
def tidyJson (g : Str → Str) (f : Filter) (time : Int) (x : Found) (xs : List CLine) : JVal :=
  let left := leftOf f.unusedLabels f.compatmode x {} xs
  .obj [(b! "asm", .arr (rowsTidy g f xs x {} none [] xs)), (b! "labelDefinitions", .obj (labelsJson 1 left)),
    (b! "parsingTime", .num time), (b! "filteredCount", .num ((xs.length : Int) - left.length))]

/-- The blanks of the line can be squashed without joining words: string literals only at the end of the line, `proc` not at its
beginning.  Comments have none of the words that matter in comments, too. -/
def CLine.Apart : CLine → Prop
  | x@(.comment ..) => Remark x.render
  | x => PlainlySpaced False x.render

end AsmParser
