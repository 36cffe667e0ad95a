/-
Specification vocabulary for the command line program.
-/
import Verif.Model.Main

namespace AsmParser

/-- The options of the program; every other argument is the name of a file. -/
def switches : List Str :=
  [b! "-binary", b! "-unused_labels", b! "-directives", b! "-comment_only", b! "-whitespace", b! "-plt", b! "-nocompat",
   b! "-library_functions", b! "-dont_mask_filenames", b! "-debugdump", b! "-outputtext", b! "-stdin"]

/-- The filter settings that the arguments ask for: every option is a switch, and compatibility mode is on unless it is
switched off. -/
def requestedFilter (args : List Str) : Filter where
  binary := decide (b! "-binary" ∈ args)
  unusedLabels := decide (b! "-unused_labels" ∈ args)
  libraryFunctions := decide (b! "-library_functions" ∈ args)
  directives := decide (b! "-directives" ∈ args)
  commentOnly := decide (b! "-comment_only" ∈ args)
  whitespace := decide (b! "-whitespace" ∈ args)
  plt := decide (b! "-plt" ∈ args)
  dontMaskFilenames := decide (b! "-dont_mask_filenames" ∈ args)
  compatmode := decide (b! "-nocompat" ∉ args)
  codeOnly := false

/-- The name of the file to read: the last argument that is no option. -/
def requestedFile (args : List Str) : Option Str := (args.filter fun a => a ∉ switches).getLast?

/-- The arguments say what to read. -/
def hasInput (args : List Str) : Prop := b! "-stdin" ∈ args ∨ (requestedFile args).isSome

/-- What the program reads. -/
def requestedInput (e : Env) : Str :=
  if b! "-stdin" ∈ e.args then e.stdin else e.file ((requestedFile e.args).getD [])

end AsmParser
