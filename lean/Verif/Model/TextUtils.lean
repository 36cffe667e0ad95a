/-
`AssemblyTextParserUtils`, src/utils/regexwrappers.cpp.
-/
import Verif.Model.Regexes
import Verif.Model.Utils

namespace AsmParser
open Regexes

/-- `getSourceRef`, regexwrappers.cpp:8-27: file index, line, column. -/
def getSourceRef (line : Str) : Int × Int × Int :=
  match sourceTag.fullMatch line with
  | some m =>
    let column :=
      match sourceTagWithColumn.fullMatch line with
      | some mc => toNumber (mc.get 3)
      | none => 0
    (toNumber (m.get 1), toNumber (m.get 2), column)
  | none => (0, 0, 0)

/-- `getFileDef`, regexwrappers.cpp:29-45. -/
def getFileDef (line : Str) : Option (Int × Str) :=
  match fileFind.fullMatch line with
  | some m =>
    let rest := m.get 4
    if !rest.isEmpty then some (toNumber (m.get 1), m.get 2 ++ b! "/" ++ rest)
    else some (toNumber (m.get 1), m.get 2)
  | none => none

/-- Loop of `expandTabs`, regexwrappers.cpp:54-68: `out` is `expandedLine`, `extra` is `extraChars`. -/
def expandTabsLoop : Str → Str → Nat → Str
  | [], out, _ => out
  | c :: cs, out, extra =>
    if c == 9 then
      let total := out.length + extra
      let spacesNeeded := (total + 8) % 8
      expandTabsLoop cs (out ++ List.replicate (8 - spacesNeeded) 32) (extra + spacesNeeded)
    else expandTabsLoop cs (out ++ [c]) extra

/-- `expandTabs`, regexwrappers.cpp:47-71. -/
def expandTabs (line : Str) : Str := expandTabsLoop line [] 0

/-- `ltrim`, regexwrappers.cpp:84-91. -/
def ltrim (s : Str) : Str := s.dropWhile isSpace

/-- `c == ';' || c == '#'` -/
def isCommentChar (c : Byte) : Bool := c == c! ';' || c == c! '#'

/-- Loop of `getLineWithoutComment`, regexwrappers.cpp:95-127; iterators are indices into the line and
the result is the final `lastit`. -/
def lwcLoop : Str → (it : Nat) → (spacing stillStarting : Bool) → (lastit : Nat) → Nat
  | [], _, _, _, lastit => lastit
  | c :: cs, it, spacing, still, lastit =>
    if isCommentChar c then (if spacing then lastit else it)
    else if spacing then lwcLoop cs (it + 1) (isWhitespace c) still lastit
    else if isWhitespace c then
      if still then lwcLoop cs (it + 1) spacing still lastit
      else lwcLoop cs (it + 1) true still it
    else lwcLoop cs (it + 1) spacing false lastit

/-- `getLineWithoutComment`, regexwrappers.cpp:93-130. -/
def getLineWithoutComment (line : Str) : Str := line.take (lwcLoop line 0 false true line.length)

/-- Loop of `getLineWithoutCommentAndStripFirstWord`, regexwrappers.cpp:134-188: returns
`(afterfirstword, lastit)` as indices; `n` is the length of the whole line (`line.end()`). -/
def swLoop (n : Nat) : Str → (it : Nat) → (wordstarted wordended spacing : Bool) →
    (after lastit : Nat) → Nat × Nat
  | [], _, _, _, _, after, lastit => (after, lastit)
  | c :: cs, it, ws, we, sp, after, lastit =>
    if isCommentChar c then
      if (match cs with | d :: _ => !isWhitespace d | [] => false) then
        swLoop n cs (it + 1) ws we sp after lastit
      else (after, if sp then lastit else it)
    else if !ws && isAlpha c then swLoop n cs (it + 1) true we sp after lastit
    else if ws && !we && isWhitespace c then swLoop n cs (it + 1) ws true sp it lastit
    else if we then
      if sp then
        if !isWhitespace c then swLoop n cs (it + 1) ws we false after n
        else swLoop n cs (it + 1) ws we sp after lastit
      else if isWhitespace c then swLoop n cs (it + 1) ws we true after it
      else swLoop n cs (it + 1) ws we sp after lastit
    else swLoop n cs (it + 1) ws we sp after lastit

/-- `getLineWithoutCommentAndStripFirstWord`, regexwrappers.cpp:132-191. -/
def getLineWithoutCommentAndStripFirstWord (line : Str) : Str :=
  let r := swLoop line.length line 0 false false false 0 line.length
  (line.take r.2).drop r.1

/-- `is_probably_label`, regexwrappers.cpp:193-198. -/
def isProbablyLabel (line : Str) : Bool := endsWith (getLineWithoutComment line) b! ":"

/-- `fixLabelIndentation`, regexwrappers.cpp:200-207. -/
def fixLabelIndentation (line : Str) : Str := if isProbablyLabel line then ltrim line else line

/-- `std::string_view::npos`. -/
def npos : Nat := 18446744073709551615

/-- Loop of `getUsedLabelsInLine`, regexwrappers.cpp:222-246 (`diffLen`, `startidx` as there).  Columns
are `uint16_t`.  `find` never fails here because the name was just matched in the line. -/
def usedLabelsLoop (L : Locale) (filteredLine : Str) (diffLen : Nat) : List Match → Nat → List AsmLabel
  | [], _ => []
  | m :: ms, startidx =>
    let name := m.get 2
    let loc := (find filteredLine name startidx).getD npos
    let label : AsmLabel :=
      { name, startCol := (loc + diffLen) % 65536,
        endCol := (loc + diffLen + ustrlen L name) % 65536 }
    let prefx := m.get 1
    (if prefx.isEmpty then [label]
     else [label, { label with name := prefx ++ name, startCol := (label.startCol + 65535) % 65536 }])
      ++ usedLabelsLoop L filteredLine diffLen ms (loc + name.length)

/-- `getUsedLabelsInLine`, regexwrappers.cpp:209-249. -/
def getUsedLabelsInLine (L : Locale) (line : Str) : List AsmLabel :=
  let filteredLine := getLineWithoutCommentAndStripFirstWord line
  if filteredLine.contains c! '"' then []
  else
    usedLabelsLoop L filteredLine (line.length - filteredLine.length + 1)
      (usedLabel.range filteredLine) 0

/-- `hasOpcode`, regexwrappers.cpp:251-275. -/
def hasOpcode (line : Str) (inNvccCode : Bool) : Bool :=
  let l := getLineWithoutComment line
  if (instOpcodeRe.search l).isSome then true
  else if (assignmentDef.fullMatch l).isSome then false
  else if inNvccCode then (hasNvccOpcodeRe.fullMatch l).isSome
  else (hasOpcodeRe.search l).isSome

/-- `isExampleOrStdin`, regexwrappers.cpp:277-283. -/
def isExampleOrStdin (filename : Str) : Bool := (stdInLooking.search filename).isSome

/-- `getSourceInfoFromStabs`, regexwrappers.cpp:285-302: type and line. -/
def getSourceInfoFromStabs (line : Str) : Option (Int × Int) :=
  match sourceStab.search line with
  | none => none
  | some m =>
    let type := toNumber (m.get 1)
    if type = 68 then some (type, toNumber (m.get 2)) else some (type, 0)

/-- Result of `get6502DbgInfo`. -/
structure Dbg6502 where
  file : Str
  line : Int
  isEnd : Bool
deriving Repr, DecidableEq

/-- `get6502DbgInfo`, regexwrappers.cpp:304-323. -/
def get6502DbgInfo (line : Str) : Option Dbg6502 :=
  match source6502Dbg.fullMatch line with
  | some m => some ⟨m.get 1, toNumber (m.get 2), false⟩
  | none => if (source6502DbgEnd.search line).isSome then some ⟨[], 0, true⟩ else none

/-- `getD2LineInfo`, regexwrappers.cpp:325-335. -/
def getD2LineInfo (line : Str) : Option Int := (sourceD2Tag.fullMatch line).map fun m => toNumber (m.get 1)

/-- `getD2FileInfo`, regexwrappers.cpp:337-347. -/
def getD2FileInfo (line : Str) : Option Str := (sourceD2File.fullMatch line).map fun m => m.get 1

/-- `startCommentBlock`, regexwrappers.cpp:350-356. -/
def startCommentBlock (line : Str) : Bool := (blockCommentStart.search line).isSome
/-- `endCommentBlock`, regexwrappers.cpp:358-364. -/
def endCommentBlock (line : Str) : Bool := (blockCommentStop.search line).isSome
/-- `startAppBlock`, regexwrappers.cpp:366-372. -/
def startAppBlock (line : Str) : Bool := (Regexes.startAppBlock.fullMatch line).isSome
/-- `endAppBlock`, regexwrappers.cpp:374-380. -/
def endAppBlock (line : Str) : Bool := (Regexes.endAppBlock.fullMatch line).isSome
/-- `startAsmNesting`, regexwrappers.cpp:382-388. -/
def startAsmNesting (line : Str) : Bool := (Regexes.startAsmNesting.fullMatch line).isSome
/-- `endAsmNesting`, regexwrappers.cpp:390-396. -/
def endAsmNesting (line : Str) : Bool := (Regexes.endAsmNesting.fullMatch line).isSome
/-- `startProcBlock`, regexwrappers.cpp:398-404. -/
def startProcBlock (line : Str) : Bool := (Regexes.startProcBlock.search line).isSome
/-- `endBlock`, regexwrappers.cpp:406-412. -/
def endBlock (line : Str) : Bool := (Regexes.endBlock.search line).isSome
/-- `endProcBlock`, regexwrappers.cpp:414-420. -/
def endProcBlock (line : Str) : Bool := (Regexes.endProcBlock.search line).isSome

/-- `getLabel`, regexwrappers.cpp:422-430. -/
def getLabel (line : Str) : Option Str := (labelDef.search line).map fun m => m.get 1
/-- `getLabelAssignment`, regexwrappers.cpp:442-450. -/
def getLabelAssignment (line : Str) : Option Str := (labelAssignmentDef.search line).map fun m => m.get 1
/-- `getAssignmentDef`, regexwrappers.cpp:452-458. -/
def getAssignmentDef (line : Str) : Option Str := (assignmentDef.fullMatch line).map fun m => m.get 1
/-- `getCudaLabel`, regexwrappers.cpp:460-466.  It returns group 1, which is `entry` or `func`. -/
def getCudaLabel (line : Str) : Option Str := (cudaBeginDef.search line).map fun m => m.get 1
/-- `getFunctionTypeDefinedLabel`, regexwrappers.cpp:468-474. -/
def getFunctionTypeDefinedLabel (line : Str) : Option Str :=
  (definesFunctionOrObject.search line).map fun m => m.get 1
/-- `getWeakDefinedLabel`, regexwrappers.cpp:476-482. -/
def getWeakDefinedLabel (line : Str) : Option Str := (definesWeak.search line).map fun m => m.get 1
/-- `getGlobalDefinedLabel`, regexwrappers.cpp:484-490. -/
def getGlobalDefinedLabel (line : Str) : Option Str := (definesGlobal.search line).map fun m => m.get 1

/-- `getSectionNameDef`, regexwrappers.cpp:492-504. -/
def getSectionNameDef (line : Str) : Option Str :=
  (sectionDef.search line).map fun m => if m.get 1 == b! "section" then m.get 2 else m.get 1

/-- `isJustComments`, regexwrappers.cpp:506-512. -/
def isJustComments (line : Str) : Bool := (commentOnly.fullMatch line).isSome
/-- `isJustNvccComments`, regexwrappers.cpp:514-520. -/
def isJustNvccComments (line : Str) : Bool := (commentOnlyNvcc.fullMatch line).isSome
/-- `isCudaEndDef`, regexwrappers.cpp:523-529. -/
def isCudaEndDef (line : Str) : Bool := (cudaEndDef.fullMatch line).isSome
/-- `isDataDefn`, regexwrappers.cpp:531-537. -/
def isDataDefn (line : Str) : Bool := (dataDefn.search line).isSome
/-- `isDirective`, regexwrappers.cpp:539-545. -/
def isDirective (line : Str) : Bool := (directive.fullMatch line).isSome
/-- `isInstOpcode`, regexwrappers.cpp:547-553. -/
def isInstOpcode (line : Str) : Bool := (instOpcodeRe.search line).isSome

/-- `HorSpaceState`, regexwrappers.cpp:560-566. -/
inductive HorSpaceState where
  | start | second | stop | justOne
deriving Repr, DecidableEq

/-- One iteration of the loop of `squashHorizontalWhitespace`, regexwrappers.cpp:579-634: the new state
and the characters appended. -/
def squashStep (st : HorSpaceState) (c : Byte) : HorSpaceState × Str :=
  match st with
  | .stop => if isWhitespace c then (.stop, []) else (.justOne, [c])
  | .justOne => if isWhitespace c then (.stop, b! " ") else (.justOne, [c])
  | .start => if isWhitespace c then (.second, b! " ") else (.stop, [c])
  | .second => if isWhitespace c then (.stop, b! " ") else (.stop, [c])

def squashLoop : HorSpaceState → Str → Str
  | _, [] => []
  | st, c :: cs => (squashStep st c).2 ++ squashLoop (squashStep st c).1 cs

/-- `squashHorizontalWhitespace`, regexwrappers.cpp:555-642.  `justspaces` stays true iff every
character of the line is whitespace (each branch that appends a non-whitespace character clears it
and no branch drops one). -/
def squashHorizontalWhitespace (line : Str) (atStart : Bool) : Str :=
  let squashed := squashLoop (if atStart then .start else .justOne) line
  if atStart && line.all isWhitespace then [] else squashed

/-- `squashHorizontalWhitespaceWithQuotes`, regexwrappers.cpp:644-653.  The recursive calls are on
strictly shorter strings, so `fuel` = length + 1 is enough.  Note that the final call ignores `atStart`
and uses the default `true`. -/
def squashWithQuotesAux : Nat → Str → Bool → Str
  | 0, _, _ => []
  | fuel + 1, line, atStart =>
    match findQuotes.search line with
    | some m =>
      squashWithQuotesAux fuel (m.get 1) atStart ++ m.get 2 ++ squashWithQuotesAux fuel (m.get 3) false
    | none => squashHorizontalWhitespace line true

def squashHorizontalWhitespaceWithQuotes (line : Str) (atStart : Bool) : Str :=
  squashWithQuotesAux (line.length + 1) line atStart

end AsmParser
