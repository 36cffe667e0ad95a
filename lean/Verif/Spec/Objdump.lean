/-
Small specification vocabulary for the objdump (binary mode) properties.
-/
import Verif.Model.Objdump

namespace AsmParser

/-- The result of parsing `input` with a fresh binary-mode parser. -/
def objParse (L : Locale) (f : Filter) (input : Str) : OParser := (OParser.init f).fromStream L input

/-- The label lines of a list of lines with their line numbers, counting from `n`. -/
def labelTable : Nat → List AsmLine → List (Str × Nat)
  | _, [] => []
  | n, l :: ls => if l.isLabel then (l.label, n) :: labelTable (n + 1) ls else labelTable (n + 1) ls

/-- The line that announces truncation. -/
def markerLine : AsmLine := { text := b! "[truncated; too many lines]" }

/-- Number of newline characters. -/
def newlines (s : Str) : Nat := s.count 10

/-- A line without carriage returns, semicolons and the blanks it starts with. -/
def lineBody (line : Str) : Str := (line.filter fun c => c != 13 && c != c! ';').dropWhile isWhitespace

/-- The first word of a line: up to a blank, `:` or `/`. -/
def firstWord (line : Str) : Str := (lineBody line).takeWhile fun c => !isWhitespace c && c != c! ':' && c != c! '/'

/-- The character that ends the first word. -/
def wordEnd (line : Str) : Option Byte := ((lineBody line).drop (firstWord line).length).head?

/-- A line whose first word is ended by a blank (and not by `:` or `/`), and is not `Disassembly`: the shape of
a function header. -/
def headerLike (line : Str) : Bool :=
  firstWord line != [] && firstWord line != b! "Disassembly" && (wordEnd line).any isWhitespace

/-- Join lines, each terminated by a newline. -/
def unlines (ls : List Str) : Str := ls.flatMap fun l => l ++ [10]

/-- A locale that treats ASCII characters as single characters. -/
def Locale.Ascii (L : Locale) : Prop := ∀ c cs, 0 < c → c < 128 → L.mblen (c :: cs) = 1

/-- Only ASCII characters, no NUL. -/
def asciiStr (s : Str) : Prop := ∀ c ∈ s, 0 < c ∧ c < 128

end AsmParser
