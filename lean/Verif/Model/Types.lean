/-
The plain data types of src/types/.
-/
import Verif.Model.Basic

namespace AsmParser

/-- `AsmParser::Filter`, src/types/filter.hpp:6-20. -/
structure Filter where
  binary : Bool := false
  unusedLabels : Bool := false
  libraryFunctions : Bool := false
  directives : Bool := false
  commentOnly : Bool := false
  whitespace : Bool := false
  plt : Bool := false
  dontMaskFilenames : Bool := false
  compatmode : Bool := false
  codeOnly : Bool := false
deriving Repr, DecidableEq

/-- `asm_label` / `asm_label_v` with its `asm_range`, src/types/line.hpp:19-23, 34-44.  The columns
are `uint16_t`: every assignment in the model reduces modulo 65536. -/
structure AsmLabel where
  name : Str := []
  startCol : Nat := 0
  endCol : Nat := 0
deriving Repr, DecidableEq

/-- `asm_source`, src/types/line.hpp:46-54. -/
structure AsmSource where
  file : Str := []
  fileIdx : Int := 0
  line : Int := 0
  column : Int := 0
  isUsercode : Bool := false
  insideProc : Bool := false
deriving Repr, DecidableEq

/-- `asm_line`, src/types/line.hpp:95-115: a line as stored by the objdump parser.  It is also the
contents of an `asm_line_v` (src/types/line.hpp:117-173) as the JSON writer sees it; the writer
never looks at `asm_source_v::is_end`. -/
structure AsmLine where
  text : Str := []
  sect : Str := []
  labels : List AsmLabel := []
  opcodes : List Str := []
  closestParentLabel : Str := []
  isLabel : Bool := false
  isInternalLabel : Bool := false
  label : Str := []
  source : AsmSource := {}
  address : Option Int := none
  isUsed : Bool := false
  isUsedThroughAlias : Bool := false
  isUsedDataThroughAlias : Bool := false
  isData : Bool := false
  isInlineAsm : Bool := false
  hasOpcode : Bool := false
  isDirective : Bool := false
  isAssignment : Bool := false
deriving Repr, DecidableEq

/-- The converting constructor `asm_line_v(const asm_line &)`, src/types/line.hpp:140-172.  Note
line 166: `is_used_data_through_alias` is initialised from `is_used_through_alias`. -/
def AsmLine.toView (l : AsmLine) : AsmLine :=
  { l with isUsedDataThroughAlias := l.isUsedThroughAlias }

/-- `asm_labelpair` / `asm_labelpair_t`, src/types/line.hpp:83-93.  The line number is an `int32_t`;
it is always `lines.size() + 1` (or a loop counter over `lines`), so the model uses `Nat` and does
not represent the wrap-around that more than 2^31 lines would cause. -/
abbrev LabelPair := Str × Nat

end AsmParser
