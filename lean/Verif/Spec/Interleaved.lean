/-
Specification: listings with the source code between the instructions.
-/
import Verif.Spec.LineInfo
import Verif.Spec.Decode
import Verif.Spec.Listing

namespace AsmParser

/-- A line with nothing but blanks, semicolons and carriage returns. -/
def EmptyLine (l : Str) : Prop := ∀ c ∈ l, c = c! ' ' ∨ c = 9 ∨ c = c! ';' ∨ c = 13

/-- A line of source code: its first word is followed by a blank or a colon, is not a hexadecimal number and not `Disassembly`. -/
inductive SourceText : Str → Prop
  | intro {m w r : Str} {d : Byte} : MarginOnly m → OneWord w → (∃ c ∈ w, ¬ HexDigit c ∧ c ≠ c! ';') →
      w.filter (· != c! ';') ≠ b! "Disassembly" → (d = c! ' ' ∨ d = 9 ∨ d = c! ':') → SourceText (m ++ w ++ d :: r)

/-- The line is the title of a function that is left out. -/
inductive LeftOutTitle (plt : Bool) : Str → Prop
  | intro {m a t : Str} {b : Byte} : MarginOnly m → OneWord a → (∀ c ∈ a, HexDigit c ∨ c = c! ';') → (∃ c ∈ a, HexDigit c) → (b = c! ' ' ∨ b = 9) →
      IgnoredName plt (titleName (dropBlanks t)) → LeftOutTitle plt (m ++ a ++ b :: t)

/-- The second list is the first without some of the lines that satisfy `P`. -/
inductive LeavingOut (P : Str → Prop) : List Str → List Str → Prop
  | nil : LeavingOut P [] []
  | same {l : Str} {ls ls' : List Str} : LeavingOut P ls ls' → LeavingOut P (l :: ls) (l :: ls')
  | out {l : Str} {ls ls' : List Str} : P l → LeavingOut P ls ls' → LeavingOut P (l :: ls) ls'

end AsmParser
