/-
`ObjDumpParser`, src/objdump/parser.cpp and src/objdump/parser.hpp.

Mutating member functions become functions returning the new state.  `OState` is
`ObjDumpParserState` plus one ghost field `ub`, which is set when the C++ would execute an operation
with undefined behaviour; after that the model's values mean nothing.
-/
import Verif.Model.Regexes
import Verif.Model.Utils
import Verif.Model.Json

namespace AsmParser

/-- `AssemblyTextParserUtils::shouldIgnoreFunction`, src/utils/regexwrappers.cpp:655-669. -/
def shouldIgnoreFunction (name : Str) (filter : Filter) : Bool :=
  if (Regexes.binaryIgnoreFunction.search name).isSome then true
  else if filter.plt then
    endsWith name b! "@plt" || endsWith name b! "@plt>" || (Regexes.pltFunction.search name).isSome
  else false

/-- `AssemblyTextParserUtils::getLabelFromObjdumpLabel`, src/utils/regexwrappers.cpp:432-440. -/
def getLabelFromObjdumpLabel (line : Str) : Option Str :=
  if startsWith line b! "<" && endsWith line b! ">:" then
    some ((line.drop 1).take (line.length - 3))
  else none

/-- `ObjDumpParserState`, src/objdump/parser.hpp:14-42.  `hasPrefixingWhitespace`,
`checkNextFileForLibraryCode` are written but never read; they are omitted. -/
structure OState where
  inComment : Bool := false
  inSomethingWithALabel : Bool := false
  inAddress : Bool := false
  inLabel : Bool := false
  inOpcodes : Bool := false
  inSectionStart : Bool := false
  inSectionName : Bool := false
  inSourceRef : Bool := false
  inSourceRefLineNumber : Bool := false
  inRelocation : Bool := false
  skipRestOfTheLine : Bool := false
  stopParsing : Bool := false
  ignoreUntilNextLabel : Bool := false
  currentLabelReference : AsmLabel := {}
  currentSourceRef : AsmSource := {}
  previousLabel : Str := []
  text : Str := []
  currentFilename : Str := []
  currentSection : Str := []
  currentLine : AsmLine := {}
  /-- ghost: undefined behaviour has occurred -/
  ub : Bool := false
deriving Repr, DecidableEq

/-- `ObjDumpParserState::commonReset`, src/objdump/parser.cpp:11-26.  Note that
`inSomethingWithALabel` and `currentLabelReference` are *not* reset. -/
def OState.commonReset (s : OState) : OState :=
  { s with
    currentLine := {}, text := [], inComment := false, inAddress := true, inOpcodes := false,
    inLabel := false, inSectionStart := false, inSectionName := false, inSourceRef := false,
    skipRestOfTheLine := false, inRelocation := false, inSourceRefLineNumber := false }

/-- `ObjDumpParser`, src/objdump/parser.hpp:44-82. -/
structure OParser where
  filter : Filter
  st : OState := {}
  lines : List AsmLine := []
  labels : List LabelPair := []
  reproducible : Bool := false
  totalLines : Nat := 0
deriving Repr, DecidableEq

/-- Constructor `ObjDumpParser(filter)`, src/objdump/parser.cpp:28-31. -/
def OParser.init (filter : Filter) : OParser := { filter }

/-- `setReproducible`, src/objdump/parser.cpp:300-303. -/
def OParser.setReproducible (p : OParser) : OParser := { p with reproducible := true }

/-- `updateSourceRefLineNumber`, src/objdump/parser.cpp:33-40.  `atoi` of a number that does not fit an
`int` is undefined behaviour. -/
def OState.updateSourceRefLineNumber (s : OState) : OState :=
  let n := atoi s.text
  if n < -2147483648 ∨ 2147483647 < n then { s with ub := true }
  else if n > 0 then { s with currentSourceRef := { s.currentSourceRef with line := n } }
  else s

/-- `maybe_remove_last_function`, src/objdump/parser.cpp:96-120.  `lines.erase(first, last)` with
`first` past the end is undefined behaviour. -/
def OParser.maybeRemoveLastFunction (p : OParser) : OParser :=
  match p.labels.getLast? with
  | none => p
  | some (_, idx) =>
    let hasUserCode := (p.lines.drop (idx - 1)).any fun l => l.source.isUsercode
    if hasUserCode then p
    else
      { p with
        lines := p.lines.take (idx - 1)
        labels := p.labels.dropLast
        st := { p.st with ub := p.st.ub || decide (p.lines.length < idx - 1) } }

/-- `label`, src/objdump/parser.cpp:122-151. -/
def OParser.label (p : OParser) : OParser :=
  if p.st.text.isEmpty then { p with st := { p.st with inLabel := false } }
  else
    let p :=
      match getLabelFromObjdumpLabel p.st.text with
      | some l => { p with st := { p.st with text := l } }
      | none => p
    let p := if p.filter.libraryFunctions then p.maybeRemoveLastFunction else p
    let p := { p with st := { p.st with
      ignoreUntilNextLabel := shouldIgnoreFunction p.st.text p.filter } }
    if p.st.ignoreUntilNextLabel then p
    else
      { p with
        st := { p.st with
          previousLabel := p.st.text
          currentLine := { p.st.currentLine with label := p.st.text, isLabel := true }
          text := p.st.text ++ b! ":" }
        labels := p.labels ++ [(p.st.text, p.lines.length + 1)] }

/-- The text of the line emitted when the limit is reached, src/objdump/parser.cpp:87. -/
def truncatedText : Str := b! "[truncated; too many lines]"

/-- `uint16_t x; x += 2`. -/
def addCols (k : Nat) : Nat := (k + 2) % 65536

/-- src/objdump/parser.cpp:63-78: the finished `currentLine`. -/
def OState.finishLine (s : OState) : AsmLine :=
  let l := { s.currentLine with text := s.text, sect := s.currentSection }
  let l :=
    if l.isLabel then l
    else
      { l with
        text := c! ' ' :: l.text
        labels := l.labels.map fun r =>
          { r with startCol := addCols r.startCol, endCol := addCols r.endCol } }
  { l with source := s.currentSourceRef }

/-- Maximal number of ordinary lines, src/objdump/parser.cpp:80. -/
def maxLines : Nat := 5000

/-- src/objdump/parser.cpp:57-93: the part of `eol` after label handling. -/
def OParser.eolTail (p : OParser) : OParser :=
  if p.st.ignoreUntilNextLabel then { p with st := p.st.commonReset }
  else if p.st.inSourceRefLineNumber then
    { p with st := p.st.updateSourceRefLineNumber.commonReset }
  else if !p.st.text.isEmpty then
    if p.lines.length < maxLines then
      { p with lines := p.lines ++ [p.st.finishLine], st := p.st.commonReset }
    else
      { p with
        lines := p.lines ++ [{ text := truncatedText }]
        st := { p.st with stopParsing := true }.commonReset }
  else { p with st := p.st.commonReset }

/-- `eol`, src/objdump/parser.cpp:42-94. -/
def OParser.eol (p : OParser) : OParser :=
  let p := { p with totalLines := p.totalLines + 1 }
  let p := if p.st.inLabel then p.label else p
  p.eolTail

/-- `labelref`, src/objdump/parser.cpp:153-175.  `substr(start)` throws iff `start > size()`, which is
caught; the range columns are `uint16_t`. -/
def OState.labelref (L : Locale) (filter : Filter) (s : OState) : OState :=
  let s :=
    if s.ignoreUntilNextLabel then s
    else
      let start := s.currentLabelReference.startCol
      if s.text.length < start then s
      else
        let name := s.text.drop start
        if shouldIgnoreFunction name filter then s
        else
          { s with currentLine := { s.currentLine with
              labels := s.currentLine.labels ++
                [{ name, startCol := start, endCol := ustrlen L s.text % 65536 }] } }
  { s with currentLabelReference := {} }

/-- The loop of `opcodes`, src/objdump/parser.cpp:181-196: split at spaces; a word is stored only when a
space follows it.  `cur` is the variable `opcode`. -/
def splitOpcodes : Str → Str → List Str
  | _, [] => []
  | cur, c :: cs =>
    if c != c! ' ' then splitOpcodes (cur ++ [c]) cs
    else if cur.isEmpty then splitOpcodes [] cs
    else cur :: splitOpcodes [] cs

/-- `opcodes`, src/objdump/parser.cpp:177-201. -/
def OState.opcodes (s : OState) : OState :=
  let s :=
    if s.ignoreUntilNextLabel then s
    else
      { s with currentLine := { s.currentLine with
          opcodes := s.currentLine.opcodes ++ splitOpcodes [] s.text } }
  { s with text := [], inOpcodes := false }

/-- `int8_t x; x += 4` (conversion to `int8_t` is modular in C++20). -/
def addBits (b : Int) : Int := if b + 4 > 127 then b + 4 - 256 else b + 4

/-- Reduction of a mathematical integer to a 32-bit `int` (C++20: `<<` on a signed left operand is the
unique value congruent modulo 2^32). -/
def wrap32 (n : Int) : Int :=
  let m := n % 4294967296
  if m < 2147483648 then m else m - 4294967296

/-- Accumulator of the address loop. -/
structure AddrAcc where
  addr : Int := 0
  bits : Int := 0
  notHex : Bool := false
  ub : Bool := false
deriving Repr, DecidableEq

/-- The loop of `actually_address`, src/objdump/parser.cpp:211-229, over the *reversed* text.
`hint << bitsdone` is an `int` shift: a shift count that is negative or ≥ 32 is undefined behaviour.
`addr` cannot leave the `int64_t` range before that happens. -/
def addrLoop : Str → AddrAcc → AddrAcc
  | [], a => a
  | c :: cs, a =>
    if !isHex c then { a with notHex := true }
    else
      let hint := hex2int c
      let a :=
        if hint ≠ 0 then
          if a.bits < 0 ∨ 32 ≤ a.bits then { a with ub := true }
          else { a with addr := a.addr + wrap32 (hint * 2 ^ a.bits.toNat) }
        else a
      addrLoop cs { a with bits := addBits a.bits }

/-- `actually_address`, src/objdump/parser.cpp:203-245. -/
def OState.actuallyAddress (s : OState) : OState :=
  if s.ignoreUntilNextLabel then { s with inAddress := false, inOpcodes := true }
  else
    let a := addrLoop s.text.reverse {}
    let s := { s with
      currentLine := { s.currentLine with address := some a.addr }, ub := s.ub || a.ub }
    if a.notHex then { s with skipRestOfTheLine := true, inAddress := false }
    else { s with inAddress := false, inOpcodes := true }

/-- `do_file_check`, src/objdump/parser.cpp:261-264. -/
def OState.doFileCheck (s : OState) (filename : Str) : OState :=
  { s with currentSourceRef := { s.currentSourceRef with isUsercode := !fileInLibrary filename } }

/-- `actually_filename`, src/objdump/parser.cpp:266-274. -/
def OState.actuallyFilename (s : OState) : OState :=
  { s with currentFilename := s.text, inAddress := false, inOpcodes := false,
           skipRestOfTheLine := true }.doFileCheck s.text

/-- `address`, src/objdump/parser.cpp:276-298. -/
def OState.address (s : OState) : OState :=
  let s :=
    match s.text with
    | c :: _ => if c == c! '/' then s.actuallyFilename else s.actuallyAddress
    | [] => { s with inAddress := false, inOpcodes := false }
  { s with text := [] }

/-- The end of the loop body, src/objdump/parser.cpp:481-483. -/
def OState.append (s : OState) (c : Byte) : OState :=
  if isWhitespace c && s.text.isEmpty then s else { s with text := s.text ++ [c] }

/-- src/objdump/parser.cpp:324-362. -/
def OState.stepAddress (s : OState) (c : Byte) : OState :=
  if c == c! '/' then { s with inAddress := false, inSourceRef := true }.append c
  else if c == c! ';' then s
  else if c == c! ':' then s.address
  else if isWhitespace c then
    if s.text == b! "Disassembly" then
      { s with inAddress := false, inSectionStart := true, currentSection := [] }.append c
    else if !s.text.isEmpty then { s.address with inAddress := false, inLabel := true }
    else s
  else s.append c

/-- src/objdump/parser.cpp:367-390. -/
def OState.stepOpcodes (s : OState) (c : Byte) : OState :=
  if c == c! ' ' || c == 9 then
    if s.text.isEmpty then s
    else if s.text.getLast? == some c! ' ' then s.opcodes
    else s.append c
  else if c == c! 'R' then
    { s with inRelocation := true, inOpcodes := false, text := s.text ++ b! "   " }.append c
  else if !isHex c then { s with inOpcodes := false }.append c
  else s.append c

/-- src/objdump/parser.cpp:391-401. -/
def OState.stepRelocation (s : OState) (c : Byte) : OState :=
  if c == 9 then { s with text := s.text ++ b! " " } else s.append c

/-- src/objdump/parser.cpp:402-429. -/
def OState.stepSection (s : OState) (c : Byte) : OState :=
  if !s.inSectionName then
    if s.text == b! "Disassembly of section " then
      { s with inSectionName := true, text := [], currentSection := [c] }
    else s.append c
  else if c == c! ':' then { s with skipRestOfTheLine := true, text := [] }
  else { s with currentSection := s.currentSection ++ [c] }

/-- src/objdump/parser.cpp:430-449. -/
def OState.stepSourceRef (s : OState) (c : Byte) : OState :=
  if c == c! ':' then
    let s' : OState :=
      { s with currentSourceRef := { file := s.text, line := 0, column := 0 },
               currentFilename := s.text, text := [] }
    { s'.doFileCheck s.text with inSourceRef := true, inSourceRefLineNumber := true }
  else if s.inSourceRefLineNumber && isWhitespace c then
    { s.updateSourceRefLineNumber with text := [], skipRestOfTheLine := true }
  else s.append c

/-- src/objdump/parser.cpp:450-479 (and the fall-through to 481-483). -/
def OState.stepText (L : Locale) (filter : Filter) (s : OState) (c : Byte) : OState :=
  if s.inComment then s.append c
  else if c == c! '#' then { s with inComment := true }.append c
  else if c == c! '<' then
    { s with
      inSomethingWithALabel := true
      currentLabelReference := { s.currentLabelReference with
        startCol := (ustrlen L s.text + 1) % 65536, endCol := 0 } }.append c
  else if s.inSomethingWithALabel then
    if c == c! '>' then
      let s := { s with inSomethingWithALabel := false }
      (if s.currentLabelReference.name.isEmpty then s.labelref L filter else s).append c
    else if c == c! '+' then
      ({ s with inSomethingWithALabel := false }.labelref L filter).append c
    else s.append c
  else s.append c

/-- src/objdump/parser.cpp:322-484: one character that is neither CR nor LF, when the rest of the line
is not being skipped. -/
def OState.step (L : Locale) (filter : Filter) (s : OState) (c : Byte) : OState :=
  if s.inAddress then s.stepAddress c
  else if s.inLabel then s.append c
  else if s.inOpcodes then s.stepOpcodes c
  else if s.inRelocation then s.stepRelocation c
  else if s.inSectionStart then s.stepSection c
  else if s.inSourceRef then s.stepSourceRef c
  else s.stepText L filter c

/-- Body of the loop of `fromStream`, src/objdump/parser.cpp:311-485. -/
def OParser.feed (L : Locale) (p : OParser) (c : Byte) : OParser :=
  if p.st.stopParsing then p
  else if c == 13 then p
  else if c == 10 then p.eol
  else if p.st.skipRestOfTheLine then p
  else { p with st := p.st.step L p.filter c }

/-- `fromStream`, src/objdump/parser.cpp:305-486; the stream is the list of bytes it delivers. -/
def OParser.fromStream (L : Locale) (p : OParser) (input : Str) : OParser :=
  input.foldl (OParser.feed L)
    { p with totalLines := 0, st := { p.st with inAddress := true } }

/-- `outputText`, src/objdump/parser.cpp:517-523. -/
def OParser.outputText (p : OParser) : Str := p.lines.flatMap fun l => l.text ++ [10]

/-- The document `outputJson` hands to `JsonWriter`, src/objdump/parser.cpp:488-508.  `time` is the value
of the running clock. -/
def OParser.jsonDoc (p : OParser) (time : Int) : JsonDoc :=
  { filter := p.filter, lines := p.lines.map AsmLine.toView, labels := p.labels,
    originalLineCount := p.totalLines, reproducible := p.reproducible, time }

/-- `outputJson`, src/objdump/parser.cpp:488-508. -/
def OParser.outputJson (p : OParser) (time : Int) : Str := (p.jsonDoc time).write

/-- `outputDebugJson`, src/objdump/parser.cpp:510-515: writes a message and throws. -/
def OParser.outputDebugJson (_p : OParser) : Except Str Str := .error b! "Not implemented\n"

end AsmParser
