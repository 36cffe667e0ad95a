/-
The regular expressions of src/utils/regexes.hpp, transcribed node by node.  Expressions that no
function of the project uses (labelFindNonMips, labelFindMips, mipsLabelDefinition,
definesFunction, commentRe) are omitted.
-/
import Verif.Model.Regex

namespace AsmParser.Regexes
open AsmParser Re

/-- `[.A-Z_a-z]` -/
def symStart (c : Byte) : Bool := c == c! '.' || isUpper c || c == c! '_' || isLower c
/-- `[$.A-Z_a-z]` -/
def symStartD (c : Byte) : Bool := c == c! '$' || symStart c
/-- `[\w$.]` -/
def symChar (c : Byte) : Bool := isWord c || c == c! '$' || c == c! '.'
/-- `[\w$.@]` -/
def labelChar (c : Byte) : Bool := isWord c || c == c! '$' || c == c! '.' || c == c! '@'

/-- `^(?:.proc\h+)?([\w$.@]+):` (search), src/utils/regexes.hpp:11 -/
def labelDef : Re :=
  bol ++ opt (any ++ lit b! "proc" ++ hs1) ++ grp 1 (plus (cls labelChar)) ++ chr c! ':'

/-- `^([\.$\w][\w\d]*)\h+=` (search), regexes.hpp:12 -/
def labelAssignmentDef : Re :=
  bol ++ grp 1 (cls (fun c => c == c! '.' || c == c! '$' || isWord c)
      ++ many (cls fun c => isWord c || isDigit c))
    ++ hs1 ++ chr c! '='

/-- `^\h*\.(string|asciz|ascii|base64|[1248]?byte|short|half|[dhx]?word|long|quad|octa|value|zero)`
(search), regexes.hpp:17-18 -/
def dataDefn : Re :=
  bol ++ hs ++ chr c! '.' ++ grp 1
    (alt (lit b! "string") <| alt (lit b! "asciz") <| alt (lit b! "ascii") <| alt (lit b! "base64") <|
     alt (opt (cls fun c => c == c! '1' || c == c! '2' || c == c! '4' || c == c! '8') ++ lit b! "byte") <|
     alt (lit b! "short") <| alt (lit b! "half") <|
     alt (opt (cls fun c => c == c! 'd' || c == c! 'h' || c == c! 'x') ++ lit b! "word") <|
     alt (lit b! "long") <| alt (lit b! "quad") <| alt (lit b! "octa") <| alt (lit b! "value") (lit b! "zero"))

/-- `[^"]+` -/
def notQuotes : Re := plus (cls fun c => c != c! '"')

/-- `^\h*\.file\h+(\d+)\h+"([^"]+)"(\h+"([^"]+)")?.*` (match), regexes.hpp:19 -/
def fileFind : Re :=
  bol ++ hs ++ lit b! ".file" ++ hs1 ++ grp 1 digits ++ hs1 ++ chr c! '"' ++ grp 2 notQuotes ++ chr c! '"'
    ++ opt (grp 3 (hs1 ++ chr c! '"' ++ grp 4 notQuotes ++ chr c! '"')) ++ many any

/-- `^\h*[A-Za-z]` (search), regexes.hpp:20 -/
def hasOpcodeRe : Re := bol ++ hs ++ cls isAlpha

/-- `^\h*[@A-Za-z\|]` (**match**: the whole line), regexes.hpp:22 -/
def hasNvccOpcodeRe : Re := bol ++ hs ++ cls fun c => c == c! '@' || isAlpha c || c == c! '|'

/-- `\.type\h*([a-z_A-Z0-9]*),\h*@?(function|object|proc)` (search), regexes.hpp:24 -/
def definesFunctionOrObject : Re :=
  lit b! ".type" ++ hs ++ grp 1 (many (cls isWord)) ++ chr c! ',' ++ hs ++ opt (chr c! '@')
    ++ grp 2 (oneOf [b! "function", b! "object", b! "proc"])

/-- `[.A-Z_a-z][\w$.]*` -/
def sym : Re := cls symStart ++ many (cls symChar)

/-- `^\h*\.(?:globa?l|GLB|export)\h*([.A-Z_a-z][\w$.]*)` (search), regexes.hpp:25 -/
def definesGlobal : Re :=
  bol ++ hs ++ chr c! '.'
    ++ alt (lit b! "glob" ++ opt (chr c! 'a') ++ chr c! 'l') (alt (lit b! "GLB") (lit b! "export"))
    ++ hs ++ grp 1 sym

/-- `^\h*\.(?:weakext|weak)\h*([.A-Z_a-z][\w$.]*)` (search), regexes.hpp:26 -/
def definesWeak : Re :=
  bol ++ hs ++ chr c! '.' ++ oneOf [b! "weakext", b! "weak"] ++ hs ++ grp 1 sym

/-- `^\h*([$.A-Z_a-z][\w$.]+)\h*=` (**match**), regexes.hpp:28 -/
def assignmentDef : Re :=
  bol ++ hs ++ grp 1 (cls symStartD ++ plus (cls symChar)) ++ hs ++ chr c! '='

/-- `^\h*\..*$` (match), regexes.hpp:29 -/
def directive : Re := bol ++ hs ++ chr c! '.' ++ many any ++ eol

/-- `\h*#APP.*` (match), regexes.hpp:30 -/
def startAppBlock : Re := hs ++ lit b! "#APP" ++ many any
/-- `\h*#NO_APP.*` (match), regexes.hpp:31 -/
def endAppBlock : Re := hs ++ lit b! "#NO_APP" ++ many any
/-- `\h*# Begin ASM.*` (match), regexes.hpp:32 -/
def startAsmNesting : Re := hs ++ lit b! "# Begin ASM" ++ many any
/-- `\h*# End ASM.*` (match), regexes.hpp:33 -/
def endAsmNesting : Re := hs ++ lit b! "# End ASM" ++ many any

/-- `\.(entry|func)\h+(?:\([^)]*\)\h*)?([$.A-Z_a-z][\w$.]*)\($` (search), regexes.hpp:34 -/
def cudaBeginDef : Re :=
  chr c! '.' ++ grp 1 (oneOf [b! "entry", b! "func"]) ++ hs1
    ++ opt (chr c! '(' ++ many (cls fun c => c != c! ')') ++ chr c! ')' ++ hs)
    ++ grp 2 (cls symStartD ++ many (cls symChar)) ++ chr c! '(' ++ eol

/-- `^\h*\)\h*$` (match), regexes.hpp:35 -/
def cudaEndDef : Re := bol ++ hs ++ chr c! ')' ++ hs ++ eol

/-- `(\.inst\.?\w?)\h*(.*)` (search), regexes.hpp:41 -/
def instOpcodeRe : Re :=
  grp 1 (lit b! ".inst" ++ opt (chr c! '.') ++ opt (cls isWord)) ++ hs ++ grp 2 (many any)

/-- `^\h*/\*` (search), regexes.hpp:42 -/
def blockCommentStart : Re := bol ++ hs ++ lit b! "/*"
/-- `\*/` (search), regexes.hpp:43 -/
def blockCommentStop : Re := lit b! "*/"

/-- `^\h*(((#|@|//).*)|(/\*.*\*/)|(;\s*)|(;[^;].*)|(;;.*\S.*))$` (match), regexes.hpp:44 -/
def commentOnly : Re :=
  bol ++ hs ++ grp 1
    (alt (grp 2 (grp 3 (alt (chr c! '#') (alt (chr c! '@') (lit b! "//"))) ++ many any)) <|
     alt (grp 4 (lit b! "/*" ++ many any ++ lit b! "*/")) <|
     alt (grp 5 (chr c! ';' ++ many (cls isSpace))) <|
     alt (grp 6 (chr c! ';' ++ cls (fun c => c != c! ';') ++ many any))
         (grp 7 (lit b! ";;" ++ many any ++ cls (fun c => !isSpace c) ++ many any))) ++ eol

/-- `^\h*(((#|;|//).*)|(/\*.*\*/))$` (match), regexes.hpp:45 -/
def commentOnlyNvcc : Re :=
  bol ++ hs ++ grp 1
    (alt (grp 2 (grp 3 (alt (chr c! '#') (alt (chr c! ';') (lit b! "//"))) ++ many any))
         (grp 4 (lit b! "/*" ++ many any ++ lit b! "*/"))) ++ eol

/-- `^\h*\.loc\h+(\d+)\h+(\d+).*` (match), regexes.hpp:46 -/
def sourceTag : Re :=
  bol ++ hs ++ lit b! ".loc" ++ hs1 ++ grp 1 digits ++ hs1 ++ grp 2 digits ++ many any
/-- `^\h*\.loc\h+(\d+)\h+(\d+)\h+(\d+).*` (match), regexes.hpp:47 -/
def sourceTagWithColumn : Re :=
  bol ++ hs ++ lit b! ".loc" ++ hs1 ++ grp 1 digits ++ hs1 ++ grp 2 digits ++ hs1 ++ grp 3 digits ++ many any

/-- `^\h*\.dbg\h+line,\h*"([^"]+)",\h*(\d+)` (match), regexes.hpp:48 -/
def source6502Dbg : Re :=
  bol ++ hs ++ lit b! ".dbg" ++ hs1 ++ lit b! "line," ++ hs ++ chr c! '"' ++ grp 1 notQuotes
    ++ lit b! "\"," ++ hs ++ grp 2 digits
/-- `^\h*\.dbg\h+line` (search), regexes.hpp:49 -/
def source6502DbgEnd : Re := bol ++ hs ++ lit b! ".dbg" ++ hs1 ++ lit b! "line"

/-- `^\h*\.stabn\h+(\d+),0,(\d+),.*` (search), regexes.hpp:50 -/
def sourceStab : Re :=
  bol ++ hs ++ lit b! ".stabn" ++ hs1 ++ grp 1 digits ++ lit b! ",0," ++ grp 2 digits ++ chr c! ',' ++ many any

/-- `^\h*\.d2line\h+(\d+),?\h*(\d*).*` (match), regexes.hpp:51 -/
def sourceD2Tag : Re :=
  bol ++ hs ++ lit b! ".d2line" ++ hs1 ++ grp 1 digits ++ opt (chr c! ',') ++ hs
    ++ grp 2 (many (cls isDigit)) ++ many any
/-- `^\h*\.d2file\h+"(.*)"` (match), regexes.hpp:52 -/
def sourceD2File : Re :=
  bol ++ hs ++ lit b! ".d2file" ++ hs1 ++ chr c! '"' ++ grp 1 (many any) ++ chr c! '"'

/-- `<stdin>|^-$|example\.[^/]+$|<source>` (search), regexes.hpp:53 -/
def stdInLooking : Re :=
  alt (lit b! "<stdin>") <| alt (bol ++ chr c! '-' ++ eol) <|
  alt (lit b! "example." ++ plus (cls fun c => c != c! '/') ++ eol) (lit b! "<source>")

/-- `\.cfi_startproc` (search), regexes.hpp:54 -/
def startProcBlock : Re := lit b! ".cfi_startproc"
/-- `\.(cfi_endproc|data|text|section)` (search), regexes.hpp:55 -/
def endBlock : Re :=
  chr c! '.' ++ grp 1 (oneOf [b! "cfi_endproc", b! "data", b! "text", b! "section"])
/-- `\.cfi_endproc` (search), regexes.hpp:56 -/
def endProcBlock : Re := lit b! ".cfi_endproc"

/-- `[.a-zA-Z0-9\-]` -/
def sectionChar (c : Byte) : Bool := c == c! '.' || isAlpha c || isDigit c || c == c! '-'

/-- `\.(data|text|section)\h*"?([.a-zA-Z0-9\-]*)"?` (search), regexes.hpp:58 -/
def sectionDef : Re :=
  chr c! '.' ++ grp 1 (oneOf [b! "data", b! "text", b! "section"]) ++ hs ++ opt (chr c! '"')
    ++ grp 2 (many (cls sectionChar)) ++ opt (chr c! '"')

/-- one element `[^"\\]|\\.` of a quoted string -/
def quotedChar : Re :=
  alt (cls fun c => c != c! '"' && c != c! '\\') (chr c! '\\' ++ any)

/-- `(.*?)("(?:[^"\\]|\\.)*")(.*)` (search), regexes.hpp:60 -/
def findQuotes : Re :=
  grp 1 (star false any) ++ grp 2 (chr c! '"' ++ many quotedChar ++ chr c! '"') ++ grp 3 (many any)

/-- `^(__.*|_(init|start|fini)|(de)?register_tm_clones|call_gmon_start|frame_dummy|\.plt.*|_dl_relocate_static_pie)$`
(search), regexes.hpp:62-63 -/
def binaryIgnoreFunction : Re :=
  bol ++ grp 1
    (alt (lit b! "__" ++ many any) <|
     alt (chr c! '_' ++ grp 2 (oneOf [b! "init", b! "start", b! "fini"])) <|
     alt (opt (grp 3 (lit b! "de")) ++ lit b! "register_tm_clones") <|
     alt (lit b! "call_gmon_start") <| alt (lit b! "frame_dummy") <|
     alt (lit b! ".plt" ++ many any) (lit b! "_dl_relocate_static_pie")) ++ eol

/-- `^(.*@plt[\-xa-zA-Z0-9]*)$` (search), regexes.hpp:65 -/
def pltFunction : Re :=
  bol ++ grp 1 (many any ++ lit b! "@plt"
    ++ many (cls fun c => c == c! '-' || c == c! 'x' || isAlpha c || isDigit c)) ++ eol

/-- `([$%]?)([.@A-Z_a-z][.\dA-Z_a-z]*)` (range), src/utils/regexwrappers.cpp:223 -/
def usedLabel : Re :=
  grp 1 (opt (cls fun c => c == c! '$' || c == c! '%'))
    ++ grp 2 (cls (fun c => c == c! '.' || c == c! '@' || isUpper c || c == c! '_' || isLower c)
        ++ many (cls fun c => c == c! '.' || isDigit c || isUpper c || c == c! '_' || isLower c))

end AsmParser.Regexes
