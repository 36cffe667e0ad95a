/-
`JsonWriter`, src/utils/jsonwriter.cpp:1-407.

The stream `out` becomes the returned byte string.  `prettyPrint` is `false` from construction
(jsonwriter.cpp:12) and never changed, so the pretty-printing branches are omitted (they are in `Verif/Model/JsonPretty.lean`).  How numbers are
printed depends on the locale that was global when the stream was constructed.  `std::cout` and the string streams
of the tests have the classic locale (`intToDec`, the default of the parameter `num`); the stream of the debug dump
of the program has en_US.UTF-8, which groups digits (`groupDec`).
-/
import Verif.Model.Types

namespace AsmParser

/-- Decimal digits of a natural number. -/
def natToDecAux : Nat → Nat → Str
  | 0, _ => []
  | fuel + 1, n =>
    if n < 10 then [UInt8.ofNat (48 + n)]
    else natToDecAux fuel (n / 10) ++ [UInt8.ofNat (48 + n % 10)]

def natToDec (n : Nat) : Str := natToDecAux (n + 1) n

/-- `out << value` for a (signed) integer. -/
def intToDec (n : Int) : Str :=
  if n < 0 then c! '-' :: natToDec n.natAbs else natToDec n.natAbs

/-- A comma after every third digit, from the last one; the digits are in reverse order. -/
def group3 : Str → Str
  | a :: b :: c :: d :: r => a :: b :: c :: c! ',' :: group3 (d :: r)
  | r => r

/-- `out << value` on a stream with the locale en_US.UTF-8. -/
def groupDec (n : Int) : Str :=
  (if n < 0 then b! "-" else []) ++ (group3 (natToDec n.natAbs).reverse).reverse

/-- `escape`, src/utils/jsonwriter.cpp:22-46. -/
def escape : Str → Str
  | [] => []
  | c :: cs =>
    (if c == 9 then b! "\\t"
     else if c == c! '\\' then b! "\\\\"
     else if c == c! '"' then b! "\\\""
     else [c]) ++ escape cs

/-- `"` -/
def dq : Str := b! "\""

/-- `writeKeyName(const char *)`, jsonwriter.cpp:48-51. -/
def keyName (k : Str) : Str := dq ++ k ++ b! "\": "

/-- `writeKeyName(std::string_view)`, jsonwriter.cpp:53-56. -/
def keyNameEsc (k : Str) : Str := dq ++ escape k ++ b! "\": "

/-- `writeValue`, jsonwriter.cpp:74-100, without the separators. -/
def strValue (v : Str) : Str := dq ++ escape v ++ dq

/-- the separator `", "` written for `jsonopt::trailingcomma` and `jsonopt::prefixwithcomma`,
src/utils/jsonwriter.hpp:15-20. -/
def commaSp : Str := b! ", "

/-- `isMainSource` in `writeSource`, jsonwriter.cpp:189. -/
def isMainFile (file : Str) : Bool :=
  startsWith file b! "/app/example." || startsWith file b! "example."

/-- The `"file"` member written by `writeSource`, jsonwriter.cpp:186-209: `none` is `null`. -/
def sourceFileField (filter : Filter) (file : Str) : Option Str :=
  if !file.isEmpty then
    if !filter.dontMaskFilenames && isMainFile file then none
    else if startsWith file b! "/app/" then some (file.drop 5)
    else some file
  else none

/-- `isMainSource` after the if/else, jsonwriter.cpp:186-209. -/
def sourceIsMain (file : Str) : Bool := if !file.isEmpty then isMainFile file else true

/-- `writeSource`, jsonwriter.cpp:175-221.  `"mainsource"` is written as the *string* `"true"` or
`"false"`.  (`writeKv("file", std::string_view, …)` escapes the key too, which is the identity on
`file`.) -/
def writeSource (filter : Filter) (l : AsmLine) (num : Int → Str := intToDec) : Str :=
  if (!l.isLabel || l.hasOpcode) && decide (l.source.line > 0) then
    b! "{"
    ++ (if l.source.column ≠ 0 then keyName b! "column" ++ num l.source.column ++ commaSp else [])
    ++ (match sourceFileField filter l.source.file with
        | none => keyName b! "file" ++ b! "null" ++ commaSp
        | some f => keyNameEsc b! "file" ++ strValue f ++ commaSp)
    ++ keyName b! "mainsource" ++ strValue (if sourceIsMain l.source.file then b! "true" else b! "false")
    ++ commaSp
    ++ keyName b! "line" ++ num l.source.line
    ++ b! "}"
  else b! "null"

/-- Elements separated by `sep`: the `first…` flags of jsonwriter.cpp:306-354, 362-375, 383-396. -/
def sepBy (sep : Str) : List Str → Str
  | [] => []
  | [x] => x
  | x :: xs => x ++ sep ++ sepBy sep xs

/-- `writeOpcodesArray`, jsonwriter.cpp:306-324.  Opcodes are *not* escaped. -/
def writeOpcodesArray (l : AsmLine) : Str :=
  b! "[" ++ sepBy commaSp (l.opcodes.map fun o => dq ++ o ++ dq) ++ b! "]"

/-- one element of `writeLabelArray`, jsonwriter.cpp:344-351 -/
def writeLabelRef (r : AsmLabel) (num : Int → Str := intToDec) : Str :=
  b! "{" ++ keyNameEsc b! "name" ++ strValue r.name ++ commaSp ++ keyName b! "range"
  ++ b! "{" ++ keyName b! "startCol" ++ num r.startCol
  ++ commaSp ++ keyName b! "endCol" ++ num r.endCol ++ b! "}" ++ b! "}"

/-- `writeLabelArray`, jsonwriter.cpp:326-354. -/
def writeLabelArray (l : AsmLine) : Str :=
  b! "[" ++ sepBy b! "," (l.labels.map writeLabelRef) ++ b! "]"

/-- `writeLine`, jsonwriter.cpp:223-304.  (`wroteSomethingInRoot` is true from line 234 on.) -/
def writeLine (filter : Filter) (l : AsmLine) : Str :=
  b! "{" ++ keyName b! "labels" ++ writeLabelArray l
  ++ (if l.opcodes.length > 0 then commaSp ++ keyName b! "opcodes" ++ writeOpcodesArray l else [])
  ++ (match l.address with
      | some a =>
        if !(l.isLabel && filter.compatmode) then commaSp ++ keyName b! "address" ++ intToDec a else []
      | none => [])
  ++ commaSp ++ keyName b! "source" ++ writeSource filter l
  ++ (if !l.sect.isEmpty && !filter.compatmode then
        commaSp ++ keyNameEsc b! "section" ++ strValue l.sect else [])
  ++ commaSp ++ keyName b! "text" ++ strValue l.text
  ++ b! "}"

/-- one entry of `labelDefinitions`, jsonwriter.cpp:141-155, 385-396 -/
def writeLabelDef (d : LabelPair) (num : Int → Str := intToDec) : Str := keyNameEsc d.1 ++ num d.2

/-- What a `JsonWriter` is given (jsonwriter.hpp:24-35), plus the running time in milliseconds that
`global_current_running_time()` returns (jsonwriter.cpp:400). -/
structure JsonDoc where
  filter : Filter
  lines : List AsmLine
  labels : List LabelPair
  originalLineCount : Nat
  reproducible : Bool
  time : Int

/-- `static_cast<long>(original_line_count - lines.size())`, jsonwriter.cpp:402: the `size_t`
subtraction wraps and the conversion to `long` wraps back, so this is the integer difference. -/
def JsonDoc.filteredCount (d : JsonDoc) : Int := (d.originalLineCount : Int) - d.lines.length

/-- `JsonWriter::write`, jsonwriter.cpp:356-407. -/
def JsonDoc.write (d : JsonDoc) : Str :=
  b! "{" ++ keyName b! "asm" ++ b! "["
  ++ sepBy b! "," (d.lines.map (writeLine d.filter))
  ++ b! "],"
  ++ keyName b! "labelDefinitions" ++ b! "{" ++ sepBy commaSp (d.labels.map writeLabelDef) ++ b! "}"
  ++ (if d.reproducible then [] else commaSp ++ keyName b! "parsingTime" ++ intToDec d.time)
  ++ commaSp ++ keyName b! "filteredCount" ++ intToDec d.filteredCount
  ++ b! "}"

end AsmParser
