/-
Specification: inputs that differ only in comments.
-/
import Verif.Spec.Sources

namespace AsmParser

/-- A line that is only a comment: `#`, `//` or `;` is the first thing in it except blanks (but not `;;`).  It has none of the
words that matter in comments too, even if one leaves out the white space, no brace, and does not begin or end inline assembly. -/
structure Remark (l : Str) : Prop where
  comment : ∃ bs c r, Blanks bs ∧ l = bs ++ c :: r ∧
    (c = c! '#' ∨ c = c! '/' ∧ r.head? = some c! '/' ∨ c = c! ';' ∧ r.head? ≠ some c! ';')
  words : ∀ w ∈ [b! ".cfi_startproc", b! ".cfi_endproc", b! ".data", b! ".text", b! ".section"], ¬ Contains (ink l) w
  brace : c! '}' ∉ l
  marker : ∀ w ∈ [b! "#APP", b! "#NO_APP", b! "# Begin ASM", b! "# End ASM"], ∀ bs r, Blanks bs → l ≠ bs ++ w ++ r

/-- The lists of lines differ only in what the comments say: in lines that are only comments and in block comments.  The first
argument: are the lines preceded by a block comment that has not been closed? -/
inductive SameCode : Bool → List Str → List Str → Prop
  | nil {i : Bool} : SameCode i [] []
  | line {l : Str} {ls ls' : List Str} : SameCode (opensComment l && !occurs b! "*/" l) ls ls' → SameCode false (l :: ls) (l :: ls')
  | remark {l l' : Str} {ls ls' : List Str} : Remark l → Remark l' → SameCode false ls ls' → SameCode false (l :: ls) (l' :: ls')
  | opening {l l' : Str} {ls ls' : List Str} : opensComment l = true → opensComment l' = true → occurs b! "*/" l = occurs b! "*/" l' →
      SameCode (!occurs b! "*/" l) ls ls' → SameCode false (l :: ls) (l' :: ls')
  | inside {l l' : Str} {ls ls' : List Str} : occurs b! "*/" l = occurs b! "*/" l' → SameCode (!occurs b! "*/" l) ls ls' →
      SameCode true (l :: ls) (l' :: ls')

/-- The second list is the first without block comments and without some lines that are only comments.  The first argument as
before. -/
inductive LeftOut : Bool → List Str → List Str → Prop
  | nil {i : Bool} : LeftOut i [] []
  | line {l : Str} {ls ls' : List Str} : opensComment l = false → LeftOut false ls ls' → LeftOut false (l :: ls) (l :: ls')
  | remark {l : Str} {ls ls' : List Str} : Remark l → LeftOut false ls ls' → LeftOut false (l :: ls) ls'
  | opening {l : Str} {ls ls' : List Str} : opensComment l = true → LeftOut (!occurs b! "*/" l) ls ls' → LeftOut false (l :: ls) ls'
  | inside {l : Str} {ls ls' : List Str} : LeftOut (!occurs b! "*/" l) ls ls' → LeftOut true (l :: ls) ls'

end AsmParser
