/-
The writers of src/utils/jsonwriter.cpp with `prettyPrint` set.

`prettyPrint` is a protected member (jsonwriter.hpp:30) that the constructor sets to `false` (jsonwriter.cpp:12); only a derived
class can switch it on.  The definitions follow those of `Verif/Model/Json.lean` and `Verif/Model/DebugJson.lean`; `nl` marks the
line ends that `if (this->prettyPrint) this->out << "\n"` writes.  All other line ends are written in any case.
-/
import Verif.Model.DebugJson

namespace AsmParser

/-- The line end of the pretty-printing branches. -/
def nl : Str := b! "\n"

/-- `writeSource`, jsonwriter.cpp:175-221, with the line ends of `writeKvNull` (70-71), `writeValue` (84-85, 98-99) and `writeKv`
(132-133). -/
def prettySource (filter : Filter) (l : AsmLine) : Str :=
  if (!l.isLabel || l.hasOpcode) && decide (l.source.line > 0) then
    b! "{"
    ++ (if l.source.column ≠ 0 then keyName b! "column" ++ intToDec l.source.column ++ commaSp ++ nl else [])
    ++ (match sourceFileField filter l.source.file with
        | none => keyName b! "file" ++ b! "null" ++ commaSp ++ nl
        | some f => keyNameEsc b! "file" ++ strValue f ++ commaSp ++ nl)
    ++ keyName b! "mainsource" ++ strValue (if sourceIsMain l.source.file then b! "true" else b! "false")
    ++ commaSp ++ nl
    ++ keyName b! "line" ++ intToDec l.source.line ++ nl
    ++ b! "}"
  else b! "null"

/-- One element of `writeLabelArray`, jsonwriter.cpp:344-351, and of `writeDebugLine`, 469-476. -/
def prettyLabelRef (r : AsmLabel) : Str :=
  b! "{" ++ keyNameEsc b! "name" ++ strValue r.name ++ commaSp ++ nl ++ keyName b! "range"
  ++ b! "{" ++ keyName b! "startCol" ++ intToDec r.startCol ++ nl
  ++ commaSp ++ keyName b! "endCol" ++ intToDec r.endCol ++ nl ++ b! "}" ++ b! "}"

/-- `writeLabelArray`, jsonwriter.cpp:326-354; line ends behind the commas, 336-337. -/
def prettyLabelArray (l : AsmLine) : Str :=
  b! "[" ++ sepBy (b! "," ++ nl) (l.labels.map prettyLabelRef) ++ b! "]"

/-- `writeLine`, jsonwriter.cpp:223-304; line ends of its own 229-230, 300-301. -/
def prettyLine (filter : Filter) (l : AsmLine) : Str :=
  b! "{" ++ nl ++ keyName b! "labels" ++ prettyLabelArray l
  ++ (if l.opcodes.length > 0 then commaSp ++ keyName b! "opcodes" ++ writeOpcodesArray l else [])
  ++ (match l.address with
      | some a =>
        if !(l.isLabel && filter.compatmode) then commaSp ++ keyName b! "address" ++ intToDec a ++ nl else []
      | none => [])
  ++ commaSp ++ keyName b! "source" ++ prettySource filter l
  ++ (if !l.sect.isEmpty && !filter.compatmode then
        commaSp ++ keyNameEsc b! "section" ++ strValue l.sect ++ nl else [])
  ++ commaSp ++ keyName b! "text" ++ strValue l.text ++ nl
  ++ nl ++ b! "}"

/-- One entry of `labelDefinitions`, jsonwriter.cpp:141-155, 385-396. -/
def prettyLabelDef (d : LabelPair) : Str := keyNameEsc d.1 ++ intToDec d.2 ++ nl

/-- `JsonWriter::write`, jsonwriter.cpp:356-407; line ends of its own 369-370, 381-382, 405-406. -/
def JsonDoc.writePretty (d : JsonDoc) : Str :=
  b! "{" ++ keyName b! "asm" ++ b! "["
  ++ sepBy (b! "," ++ nl) (d.lines.map (prettyLine d.filter))
  ++ b! "],"
  ++ keyName b! "labelDefinitions" ++ b! "{" ++ nl ++ sepBy commaSp (d.labels.map prettyLabelDef) ++ b! "}"
  ++ (if d.reproducible then [] else commaSp ++ keyName b! "parsingTime" ++ intToDec d.time ++ nl)
  ++ commaSp ++ keyName b! "filteredCount" ++ intToDec d.filteredCount ++ nl
  ++ b! "}" ++ nl

/-- The members of a line of the dump before `source`, jsonwriter.cpp:438-448. -/
def prettyFlags (l : AsmLine) : Str :=
  keyName b! "is_data" ++ flagValue l.isData ++ commaSp ++ nl
  ++ keyName b! "is_used" ++ flagValue l.isUsed ++ commaSp ++ nl
  ++ keyName b! "is_label" ++ flagValue l.isLabel ++ commaSp ++ nl
  ++ keyName b! "is_internal_label" ++ flagValue l.isInternalLabel ++ commaSp ++ nl
  ++ keyName b! "is_inline_asm" ++ flagValue l.isInlineAsm ++ commaSp ++ nl
  ++ keyName b! "closest_parent_label" ++ strValue l.closestParentLabel ++ commaSp ++ nl
  ++ keyNameEsc b! "section" ++ strValue l.sect ++ commaSp ++ nl
  ++ keyName b! "has_opcode" ++ flagValue l.hasOpcode ++ commaSp ++ nl
  ++ keyName b! "is_directive" ++ flagValue l.isDirective ++ commaSp ++ nl
  ++ keyName b! "is_assignment" ++ flagValue l.isAssignment ++ commaSp ++ nl

/-- `writeDebugLine`, jsonwriter.cpp:424-485; line ends of its own 462-463, 481-482. -/
def prettyDebugLine (filter : Filter) (l : AsmLine) : Str :=
  b! "{" ++ keyName b! "text" ++ strValue l.text ++ commaSp ++ nl
  ++ keyName b! "address" ++ (match l.address with
      | some a => intToDec a
      | none => b! "null") ++ commaSp ++ nl
  ++ prettyFlags l
  ++ keyName b! "source" ++ prettySource filter l ++ b! ",\n"
  ++ keyName b! "labels" ++ b! "[" ++ sepBy (b! "," ++ nl) (l.labels.map prettyLabelRef) ++ b! "]"
  ++ nl ++ b! "}"

/-- The references to one label, e.g. jsonwriter.cpp:546-561. -/
def prettyRefs (e : Str × List Str) : Str :=
  keyNameEsc e.1 ++ (b! "[" ++ sepBy commaSp (e.2.map fun r => strValue r ++ nl) ++ b! "]")

/-- `DebugJsonWriter::write`, jsonwriter.cpp:487-655; line ends of its own 500-501, 512-513, 653-654. -/
def DebugDoc.writePretty (d : DebugDoc) : Str :=
  b! "{" ++ keyName b! "asm" ++ b! "[" ++ sepBy (b! "," ++ nl) (d.lines.map (prettyDebugLine d.filter)) ++ b! "],"
  ++ keyName b! "labelDefinitions" ++ b! "{" ++ nl ++ sepBy commaSp (d.labels.map prettyLabelDef) ++ b! "}"
  ++ b! ",\n" ++ keyName b! "used_labels" ++ b! "["
  ++ sepBy b! "," (d.used.map fun e => b! "{" ++ prettyRefs e ++ b! "}") ++ b! "]"
  ++ b! ",\n" ++ keyName b! "used_weak_labels" ++ b! "{" ++ sepBy b! "," (d.weaklyUsed.map prettyRefs) ++ b! "}"
  ++ b! ",\n" ++ keyName b! "used_data_labels" ++ b! "{" ++ sepBy b! "," (d.dataUsed.map prettyRefs) ++ b! "}"
  ++ b! ",\n" ++ keyName b! "aliased_labels" ++ b! "{"
  ++ sepBy commaSp (d.aliased.map fun e => keyNameEsc e.1 ++ strValue e.2 ++ nl) ++ b! "}"
  ++ b! "}" ++ nl

end AsmParser
