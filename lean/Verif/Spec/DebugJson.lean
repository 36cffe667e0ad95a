/-
Specification: the JSON value of a debug dump.
-/
import Verif.Spec.Json
import Verif.Model.Json
import Verif.Model.DebugJson

namespace AsmParser

/-- Flags are shown as strings. -/
def flagJson (b : Bool) : JVal := .str (if b then b! "true" else b! "false")

/-- A line of the dump. -/
def debugLineJson (mask : Bool) (l : AsmLine) : JVal :=
  .obj [(b! "text", .str l.text),
    (b! "address", match l.address with | some a => .num a | none => .null),
    (b! "is_data", flagJson l.isData),
    (b! "is_used", flagJson l.isUsed),
    (b! "is_label", flagJson l.isLabel),
    (b! "is_internal_label", flagJson l.isInternalLabel),
    (b! "is_inline_asm", flagJson l.isInlineAsm),
    (b! "closest_parent_label", .str l.closestParentLabel),
    (b! "section", .str l.sect),
    (b! "has_opcode", flagJson l.hasOpcode),
    (b! "is_directive", flagJson l.isDirective),
    (b! "is_assignment", flagJson l.isAssignment),
    (b! "source", positionJson mask l),
    (b! "labels", .arr (l.labels.map refJson))]

/-- A table of references: for every label the labels that refer to it. -/
def refsJson (refs : List Str) : JVal := .arr (refs.map .str)

/-- The dump. -/
def debugJson (d : DebugDoc) : JVal :=
  .obj [(b! "asm", .arr (d.lines.map (debugLineJson (!d.filter.dontMaskFilenames)))),
    (b! "labelDefinitions", .obj (d.labels.map fun e => (e.1, .num e.2))),
    (b! "used_labels", .arr (d.used.map fun e => .obj [(e.1, refsJson e.2)])),
    (b! "used_weak_labels", .obj (d.weaklyUsed.map fun e => (e.1, refsJson e.2))),
    (b! "used_data_labels", .obj (d.dataUsed.map fun e => (e.1, refsJson e.2))),
    (b! "aliased_labels", .obj (d.aliased.map fun e => (e.1, .str e.2)))]

/-- The numbers of a line have at most three digits. -/
structure ShortNumbers (l : AsmLine) : Prop where
  address : ∀ a, l.address = some a → a.natAbs < 1000
  line : l.source.line.natAbs < 1000
  column : l.source.column.natAbs < 1000
  refs : ∀ r ∈ l.labels, r.startCol < 1000 ∧ r.endCol < 1000

/-- The strings of a line of the dump can be printed. -/
structure DebugPrintable (l : AsmLine) : Prop where
  text : NoControl l.text
  sect : NoControl l.sect
  parent : NoControl l.closestParentLabel
  file : NoControl l.source.file
  refs : ∀ r ∈ l.labels, NoControl r.name

/-- No string that is written for a line of the dump contains a control character other than tab. -/
structure DebugWritable (f : Filter) (l : AsmLine) : Prop where
  text : NoControl l.text
  sect : NoControl l.sect
  parent : NoControl l.closestParentLabel
  file : ∀ s, HasPosition l → shownFile (!f.dontMaskFilenames) l.source.file = some s → NoControl s
  refs : ∀ r ∈ l.labels, NoControl r.name

/-- The strings of a table can be printed. -/
def TablePrintable (m : List (Str × List Str)) : Prop := ∀ e ∈ m, NoControl e.1 ∧ ∀ r ∈ e.2, NoControl r

/-- No string that is written for these lines and label definitions contains a control character (tabs are allowed outside
opcodes). -/
def Writable (f : Filter) (lines : List AsmLine) (labels : List LabelPair) : Prop :=
  (∀ l ∈ lines, LineWritable f l) ∧ ∀ e ∈ labels, NoControl e.1

/-- The same for a document. -/
def DocWritable (d : JsonDoc) : Prop := Writable d.filter d.lines d.labels

/-- The same for the debug dump. -/
structure DumpWritable (d : DebugDoc) : Prop where
  lines : ∀ l ∈ d.lines, DebugWritable d.filter l
  labels : ∀ e ∈ d.labels, NoControl e.1
  used : TablePrintable d.used
  weak : TablePrintable d.weaklyUsed
  data : TablePrintable d.dataUsed
  aliased : ∀ e ∈ d.aliased, NoControl e.1 ∧ NoControl e.2

end AsmParser
