/-
Specification: the assembly code that a compiler writes, as abstract syntax, and what text mode should show of it.
-/
import Verif.Spec.Sources
import Verif.Spec.References
import Verif.Model.Json

namespace AsmParser

/-- One line of assembly code.  `sep` are the blanks before the arguments. -/
inductive CLine where
  /-- `name:`, perhaps with a comment after it -/
  | label (name note : Str)
  /-- an instruction -/
  | instr (op sep args : Str)
  /-- a directive that places data -/
  | data (kw sep args : Str)
  /-- `.file i "name"` or `.file i "dir" "name"`, perhaps with more after it -/
  | file (sep : Str) (i : Nat) (dir : Option Str) (name more : Str)
  /-- `.loc i n c` or `.loc i n`, perhaps with more after it -/
  | loc (sep : Str) (i n : Nat) (c : Option Nat) (more : Str)
  /-- `.text`, `.data`, `.section` or `.cfi_endproc` -/
  | block (kw sep args : Str)
  /-- any other directive, also `.loc 0 …` -/
  | directive (kw sep args : Str)
  /-- a comment, perhaps indented, with the mark `#`, `@` or `//` -/
  | comment (indent mark text : Str)
deriving Repr, DecidableEq

/-- A string in quotes, after a blank. -/
def quotedArg (s : Str) : Str := b! " \"" ++ s ++ b! "\""

/-- A column, after a blank. -/
def columnArg (c : Option Nat) : Str := c.elim [] fun c => b! " " ++ natToDec c

/-- How the line is written: everything but labels and comments begins with a tab. -/
def CLine.render : CLine → Str
  | .label name note => name ++ b! ":" ++ note
  | .instr kw sep args | .data kw sep args | .block kw sep args | .directive kw sep args => b! "\t" ++ kw ++ sep ++ args
  | .file sep i dir name more => b! "\t" ++ b! ".file" ++ sep ++ (natToDec i ++ (dir.elim [] quotedArg ++ quotedArg name ++ more))
  | .loc sep i n c more => b! "\t" ++ b! ".loc" ++ sep ++ (natToDec i ++ b! " " ++ natToDec n ++ columnArg c ++ more)
  | .comment indent mark text => indent ++ (mark ++ text)

/-- The line with tabs expanded. -/
def CLine.text (x : CLine) : Str := expandTabs x.render

/-- Blanks between the keyword and the arguments, which are on one line. -/
def Spaced (sep args : Str) : Prop := Blanks sep ∧ (sep = [] → args = []) ∧ (∀ c ∈ args.head?, ¬ Blank c) ∧ 10 ∉ args

/-- Nothing, or a comment after blanks. -/
def TrailingComment (s : Str) : Prop := s = [] ∨ ∃ bs text, s = bs ++ c! '#' :: text ∧ Blanks bs ∧ 10 ∉ text

/-- The line is written in the usual way. -/
def CLine.Usual : CLine → Prop
  | .label name note => name ≠ [] ∧ (∀ c ∈ name, SymbolChar c) ∧ TrailingComment note
  | .instr op sep args => Spaced sep args ∧ ∃ c w, op = c :: w ∧ Letter c ∧ ∀ d ∈ w, SymbolChar d
  | .data kw sep args => Spaced sep args ∧ kw ∈ dataDirectives
  | .file sep i dir name more => Blanks sep ∧ sep ≠ [] ∧ i < 2147483648 ∧ (name ≠ [] ∧ ∀ c ∈ name, c ≠ c! '"' ∧ c ≠ 9 ∧ c ≠ 10) ∧
      (∀ d ∈ dir, d ≠ [] ∧ ∀ c ∈ d, c ≠ c! '"' ∧ c ≠ 9 ∧ c ≠ 10) ∧ ∀ c ∈ more, c ≠ c! '"' ∧ c ≠ 9 ∧ c ≠ 10
  | .loc sep i n c more => Blanks sep ∧ sep ≠ [] ∧ i ≠ 0 ∧ i < 2147483648 ∧ n < 2147483648 ∧ (∀ k ∈ c, k < 2147483648) ∧
      (∀ d ∈ more.head?, ¬ Digit d) ∧ 9 ∉ more ∧ 10 ∉ more ∧ (c = none → ∀ bs d r, more = bs ++ d :: r → Blanks bs → ¬ Digit d)
  | .block kw sep args => Spaced sep args ∧ 9 ∉ args ∧ kw ∈ [b! ".text", b! ".data", b! ".section", b! ".cfi_endproc"]
  | .directive kw sep args => Spaced sep args ∧ (∃ w, kw = c! '.' :: w ∧ ∀ c ∈ w, SymbolChar c) ∧ (∀ d ∈ dataDirectives, ¬ d <+: kw) ∧
      kw ∉ [b! ".stabn", b! ".dbg", b! ".d2line", b! ".d2file"] ∧ (kw = b! ".file" → ∀ c ∈ args.head?, ¬ Digit c) ∧
      (kw = b! ".loc" → ∃ r, args = c! '0' :: r ∧ ∀ c ∈ r.head?, ¬ Digit c)
  | .comment indent mark text => Blanks indent ∧ mark ∈ [b! "#", b! "@", b! "//"] ∧ 10 ∉ text ∧
      ∀ w ∈ [b! "#APP", b! "#NO_APP", b! "# Begin ASM", b! "# End ASM"], ¬ w <+: mark ++ text

def CLine.isBlock : CLine → Bool
  | .block .. => true
  | _ => false

def CLine.isDirective : CLine → Bool
  | .directive .. => true
  | _ => false

def CLine.isLabel : CLine → Bool
  | .label .. => true
  | _ => false

/-- The label that the line defines. -/
def CLine.defined : CLine → Option Str
  | .label name _ => some name
  | _ => none

/-- The labels of the program, in their order. -/
def labelNames (xs : List CLine) : List Str := xs.filterMap CLine.defined

/-- Is the line shown if directives and comments are filtered? -/
def CLine.shows : CLine → Bool
  | .label .. | .instr .. | .data .. => true
  | _ => false

/-- A line as compilers write it: it has the words that end a block only if it is such a directive, `.cfi_startproc` only if it is
a directive, `.inst` only if it is shown anyway, and it does not look like `name =` or the header of a CUDA function. -/
structure CLine.Wf (x : CLine) : Prop where
  usual : x.Usual
  ends : x.isBlock = false → ∀ w ∈ [b! ".cfi_endproc", b! ".data", b! ".text", b! ".section"], occurs w x.text = false
  start : x.isDirective = false → occurs b! ".cfi_startproc" x.text = false
  inst : x.shows = false → occurs b! ".inst" x.text = false
  last : ∀ c ∈ x.text.getLast?, c ≠ c! '=' ∧ c ≠ c! '('

/-- The source position after the line: file index, line and column. -/
def CLine.moves (pos : Option (Nat × Nat × Nat)) : CLine → Option (Nat × Nat × Nat)
  | .loc _ i n c _ => some (i, n, c.getD 0)
  | .block .. => none
  | _ => pos

/-- The name of a file in a directory. -/
def fileName (dir : Option Str) (name : Str) : Str := dir.elim name fun d => d ++ b! "/" ++ name

/-- The file with index `i`, as the line says. -/
def CLine.names (i : Nat) : CLine → Option Str
  | .file _ j dir name _ => if j = i then some (fileName dir name) else none
  | _ => none

/-- The source position with the name of the file, which is the last one given for the index.  Line 0 is no position. -/
def positionShown (all : List CLine) : Option (Nat × Nat × Nat) → Option (Str × Int × Int)
  | none => none
  | some (i, n, c) => if n = 0 then none else (all.reverse.findSome? (CLine.names i)).map fun name => (name, (n : Int), (c : Int))

/-- What is shown of the lines `xs` of the program `all`, if `pos` is the source position before them: the text of each line,
whether it is a label, and for other lines the source position. -/
def shownOf (all : List CLine) : Option (Nat × Nat × Nat) → List CLine → List (Str × Bool × Option (Str × Int × Int))
  | _, [] => []
  | pos, x :: xs =>
    (if x.shows then [(x.text, x.isLabel, if x.isLabel then none else positionShown all (x.moves pos))] else []) ++
      shownOf all (x.moves pos) xs

/-- Directives and comments are filtered, and nothing else. -/
structure UsualFilter (f : Filter) : Prop where
  directives : f.directives = true
  comments : f.commentOnly = true
  unused : f.unusedLabels = false
  library : f.libraryFunctions = false
  whitespace : f.whitespace = false

/-- The data refers to no labels. -/
def NoTables (xs : List CLine) : Prop := ∀ x ∈ xs, StartsWithOneOf dataDirectives x.text → mentioned x.text = []

end AsmParser
