/-
`DebugJsonWriter`, src/utils/jsonwriter.cpp:410-655, and `AssemblyTextParser::outputDebugJson`.

As in `Verif/Model/Json.lean`, `prettyPrint` is always `false`, and `num` prints numbers.
-/
import Verif.Model.AsmText

namespace AsmParser

/-- The value of a flag: the *string* `"true"` or `"false"` (the conditional expression is a `const char *`, for which the
overload `writeKv(const char *, const std::string &, jsonopt)` is chosen). -/
def flagValue (b : Bool) : Str := strValue (if b then b! "true" else b! "false")

/-- The members of a line before `source`, jsonwriter.cpp:424-448, each with the comma behind it. -/
def debugFlags (l : AsmLine) : Str :=
  keyName b! "is_data" ++ flagValue l.isData ++ commaSp
  ++ keyName b! "is_used" ++ flagValue l.isUsed ++ commaSp
  ++ keyName b! "is_label" ++ flagValue l.isLabel ++ commaSp
  ++ keyName b! "is_internal_label" ++ flagValue l.isInternalLabel ++ commaSp
  ++ keyName b! "is_inline_asm" ++ flagValue l.isInlineAsm ++ commaSp
  ++ keyName b! "closest_parent_label" ++ strValue l.closestParentLabel ++ commaSp
  ++ keyNameEsc b! "section" ++ strValue l.sect ++ commaSp
  ++ keyName b! "has_opcode" ++ flagValue l.hasOpcode ++ commaSp
  ++ keyName b! "is_directive" ++ flagValue l.isDirective ++ commaSp
  ++ keyName b! "is_assignment" ++ flagValue l.isAssignment ++ commaSp

/-- `writeDebugLine`, jsonwriter.cpp:424-485.  A reference to a label is written as `writeLabelArray` writes it. -/
def writeDebugLine (filter : Filter) (l : AsmLine) (num : Int → Str := intToDec) : Str :=
  b! "{" ++ keyName b! "text" ++ strValue l.text ++ commaSp
  ++ keyName b! "address" ++ (match l.address with
      | some a => num a
      | none => b! "null") ++ commaSp
  ++ debugFlags l
  ++ keyName b! "source" ++ writeSource filter l num ++ b! ",\n"
  ++ keyName b! "labels" ++ b! "[" ++ sepBy b! "," (l.labels.map fun r => writeLabelRef r num) ++ b! "]"
  ++ b! "}"

/-- What a `DebugJsonWriter` is given, jsonwriter.hpp:56-80.  The containers are given in the order in which the writer
iterates over its copies of them. -/
structure DebugDoc where
  filter : Filter
  lines : List AsmLine
  labels : List LabelPair
  used : List (Str × List Str)
  weaklyUsed : List (Str × List Str)
  dataUsed : List (Str × List Str)
  aliased : List (Str × Str)

/-- The references to one label, e.g. jsonwriter.cpp:546-561. -/
def writeRefs (e : Str × List Str) : Str := keyNameEsc e.1 ++ (b! "[" ++ sepBy commaSp (e.2.map strValue) ++ b! "]")

/-- `DebugJsonWriter::write`, jsonwriter.cpp:487-655.  The used labels are an array of objects with one member each, the other
tables are objects. -/
def DebugDoc.write (d : DebugDoc) (num : Int → Str := intToDec) : Str :=
  b! "{" ++ keyName b! "asm" ++ b! "[" ++ sepBy b! "," (d.lines.map fun l => writeDebugLine d.filter l num) ++ b! "],"
  ++ keyName b! "labelDefinitions" ++ b! "{" ++ sepBy commaSp (d.labels.map fun e => writeLabelDef e num) ++ b! "}"
  ++ b! ",\n" ++ keyName b! "used_labels" ++ b! "["
  ++ sepBy b! "," (d.used.map fun e => b! "{" ++ writeRefs e ++ b! "}") ++ b! "]"
  ++ b! ",\n" ++ keyName b! "used_weak_labels" ++ b! "{" ++ sepBy b! "," (d.weaklyUsed.map writeRefs) ++ b! "}"
  ++ b! ",\n" ++ keyName b! "used_data_labels" ++ b! "{" ++ sepBy b! "," (d.dataUsed.map writeRefs) ++ b! "}"
  ++ b! ",\n" ++ keyName b! "aliased_labels" ++ b! "{"
  ++ sepBy commaSp (d.aliased.map fun e => keyNameEsc e.1 ++ strValue e.2) ++ b! "}"
  ++ b! "}"

/-- Iteration orders of the writer's copies of the hash containers. -/
structure DumpOrder where
  refs : List Str → List Str
  table : List (Str × List Str) → List (Str × List Str)
  alias : List (Str × Str) → List (Str × Str)
  refs_perm : ∀ l, (refs l).Perm l
  table_perm : ∀ l, (table l).Perm l
  alias_perm : ∀ l, (alias l).Perm l

/-- Insertion order. -/
def DumpOrder.id : DumpOrder := ⟨fun l => l, fun l => l, fun l => l, fun _ => .refl _, fun _ => .refl _, fun _ => .refl _⟩

/-- A container of sets in iteration order. -/
def DumpOrder.sets (o : DumpOrder) (m : List (Str × List Str)) : List (Str × List Str) :=
  (o.table m).map fun e => (e.1, o.refs e.2)

/-- The document `outputDebugJson` hands to `DebugJsonWriter`, src/assembly/parser.cpp:859-866. -/
def TParser.debugDoc (p : TParser) (o : DumpOrder) : DebugDoc :=
  { filter := p.filter, lines := p.lines.map TLine.toAsm, labels := redetermineLabels 1 p.lines,
    used := o.sets p.usage.used, weaklyUsed := o.sets p.usage.weaklyUsed, dataUsed := o.sets p.usage.dataUsed,
    aliased := o.alias p.usage.aliased }

/-- `outputDebugJson`, src/assembly/parser.cpp:859-866 (meaningful if `outputDebugJsonUB` is false). -/
def TParser.outputDebugJson (p : TParser) (o : DumpOrder) (num : Int → Str := intToDec) : Str := (p.debugDoc o).write num

/-- Does writing this line to the debug dump read the characters of a dangling view?  `writeDebugLine` reads the section of every
line (jsonwriter.cpp:444). -/
def TParser.lineDebugUB (p : TParser) (l : TLine) : Bool :=
  (!l.sect.s.isEmpty && !p.live l.id l.sect.own)
  || ((!l.isLabel || l.hasOpcode) && decide (l.source.line > 0) && !l.source.file.s.isEmpty
      && !p.live l.id l.source.file.own)

def TParser.outputDebugJsonUB (p : TParser) : Bool := p.lines.any p.lineDebugUB

end AsmParser
