/-
Specification for C96: inline assembly.
-/
import Verif.Spec.TextMode

namespace AsmParser

/-- The line marks the beginning of inline assembly. -/
def AsmBegins (l : Str) : Prop := ∃ bs r, Blanks bs ∧ (l = bs ++ b! "#APP" ++ r ∨ l = bs ++ b! "# Begin ASM" ++ r)

/-- The line marks the end of inline assembly. -/
def AsmEnds (l : Str) : Prop := ∃ bs r, Blanks bs ∧ (l = bs ++ b! "#NO_APP" ++ r ∨ l = bs ++ b! "# End ASM" ++ r)

/-- After the lines `ls` we are in inline assembly: it has begun and has not ended since. -/
def InsideAsm (ls : List Str) : Prop := ∃ a m b, ls = a ++ m :: b ∧ AsmBegins m ∧ ∀ x ∈ b, ¬ AsmEnds x

/-- Inline assembly begins only outside and ends only inside inline assembly. -/
def AsmPaired (ls : List Str) : Prop := ∀ a m b, ls = a ++ m :: b → (AsmBegins m → ¬ InsideAsm a) ∧ (AsmEnds m → InsideAsm a)

/-- The lines of the input, without the block comments if these are filtered out. -/
def codeLines (f : Filter) (s : Str) : List Str := if f.commentOnly then outsideComments false (inputLines s) else inputLines s

/-- A label on a line of its own, perhaps indented. -/
def LoneLabel (raw name : Str) : Prop :=
  ∃ bs, Blanks bs ∧ raw = bs ++ name ++ b! ":" ∧ name ≠ [] ∧ ∀ c ∈ name, Letter c ∨ Digit c ∨ c = c! '_' ∨ c = c! '.'

end AsmParser
