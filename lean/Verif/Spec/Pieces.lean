/-
Specification: inputs after which text mode starts anew.
-/
import Verif.Spec.Sources

namespace AsmParser

/-- Reading the input leaves nothing open: no block comment, no inline assembly, no blanks to be put in front of the next line, no
CUDA code, and (only for the filter `directives`) no current source line. -/
structure NothingOpen [Recognizers] (f : Filter) (s : Str) : Prop where
  complete : s = [] ∨ s.getLast? = some 10
  comment : (scan f s).inside = false
  inline : (scan f s).nest = 0
  blanks : (scan f s).carry = []
  cuda : (scan f s).code = false ∧ (scan f s).params = false
  position : f.directives = true → (scan f s).placed = false

/-- Complete lines without anything that could be left open. -/
structure PlainPiece (f : Filter) (s : Str) : Prop where
  complete : s = [] ∨ s.getLast? = some 10
  comment : f.commentOnly = true → ∀ l ∈ inputLines s, opensComment l = false
  inline : ∀ l ∈ inputLines s, ∀ w ∈ [b! "#APP", b! "#NO_APP", b! "# Begin ASM", b! "# End ASM"], ∀ bs r, Blanks bs → l ≠ bs ++ w ++ r
  blanks : ∀ l ∈ inputLines s, Blanks l → l = []
  cuda : NoCuda s
  position : f.directives = true → ∀ l ∈ inputLines s, ∀ w ∈ [b! ".loc", b! ".stabn", b! ".dbg", b! ".d2line"], ¬ Contains (ink l) w

end AsmParser
