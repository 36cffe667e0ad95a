/-
The command line program, src/main.cpp.

The file system and the standard streams are parameters: `file name` is the contents that opening the
file and reading it delivers (a file that cannot be opened delivers nothing: the stream is in a failed
state and `in.get` returns immediately).  The debug dump file is assumed to be writable; its stream is constructed after
`std::locale::global` (main.cpp:74, 109), so numbers in it have their digits grouped.
-/
import Verif.Model.Objdump
import Verif.Model.DebugJson

namespace AsmParser

/-- `AsmParserConfiguration`, src/main.cpp:12-20. -/
structure Config where
  filter : Filter := {}
  filename : Str := []
  useStdin : Bool := false
  isConfigured : Bool := false
  doDebugDump : Bool := false
  outputText : Bool := false
deriving Repr, DecidableEq

/-- One iteration of the loop of `getConfigurationFromCommandline`, src/main.cpp:32-66. -/
def Config.arg (c : Config) (a : Str) : Config :=
  if a == b! "-binary" then { c with filter := { c.filter with binary := true } }
  else if a == b! "-unused_labels" then { c with filter := { c.filter with unusedLabels := true } }
  else if a == b! "-directives" then { c with filter := { c.filter with directives := true } }
  else if a == b! "-comment_only" then { c with filter := { c.filter with commentOnly := true } }
  else if a == b! "-whitespace" then { c with filter := { c.filter with whitespace := true } }
  else if a == b! "-plt" then { c with filter := { c.filter with plt := true } }
  else if a == b! "-nocompat" then { c with filter := { c.filter with compatmode := false } }
  else if a == b! "-library_functions" then { c with filter := { c.filter with libraryFunctions := true } }
  else if a == b! "-dont_mask_filenames" then
    { c with filter := { c.filter with dontMaskFilenames := true } }
  else if a == b! "-debugdump" then { c with doDebugDump := true }
  else if a == b! "-outputtext" then { c with outputText := true }
  else if a == b! "-stdin" then { c with useStdin := true, isConfigured := true }
  else { c with filename := a, isConfigured := true }

/-- `getConfigurationFromCommandline`, src/main.cpp:27-69; `args` are `argv[1]`, `argv[2]`, … -/
def Config.ofArgs (args : List Str) : Config :=
  args.foldl Config.arg { filter := { compatmode := true } }

/-- What the program observes of its environment. -/
structure Env where
  args : List Str
  /-- contents delivered by opening and reading a file -/
  file : Str → Str
  stdin : Str
  /-- does `std::locale("en_US.UTF-8")` succeed? -/
  localeOk : Bool
  L : Locale
  /-- iteration order of the hash containers -/
  order : Order
  /-- ditto, of the copies of `DebugJsonWriter` -/
  dumpOrder : DumpOrder
  /-- milliseconds since start when the JSON is written -/
  time : Int

/-- What the program does to its environment. -/
structure Result where
  stdout : Str
  exit : Nat
  /-- what `asm-parser-debugdump.json` is overwritten with, if it is -/
  debugDump : Option Str
deriving Repr, DecidableEq

/-- `main`, src/main.cpp:71-156.  `none`: the usage analysis did not finish within `fuel` nested calls. -/
def mainProgram (e : Env) (fuel : Nat) : Option Result :=
  if !e.localeOk then some ⟨[], 1, none⟩
  else
    let c := Config.ofArgs e.args
    if !c.isConfigured then some ⟨b! "Commandline arguments expected\n", 1, none⟩
    else
      let input := if !c.useStdin then e.file c.filename else e.stdin
      if c.filter.binary then
        let p := (OParser.init c.filter).fromStream e.L input
        some ⟨if c.outputText then p.outputText else p.outputJson e.time, 0, none⟩
      else
        match (TParser.init c.filter).fromStream e.L e.order fuel input [] with
        | none => none
        | some (p, _) =>
          some ⟨if c.outputText then p.outputText else p.outputJson e.time, 0,
                if !c.useStdin && c.doDebugDump then some (p.outputDebugJson e.dumpOrder groupDec) else none⟩

end AsmParser
