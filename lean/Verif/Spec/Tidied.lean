/-
Specification for C25, C26 and C97: the text of a line without superfluous blanks.
-/
import Verif.Spec.OneBlank

namespace AsmParser

/-- Nothing is left of a line of blanks.  Of the indentation of any other line, at most two blanks are left; and a single space of each
other run of blanks.  But if the indentation is shorter than two blanks, and the first word is a single character, the blanks behind this
character are lost. -/
def tidied (s : Str) : Str :=
  match s.drop (indentation s).length with
  | [] => []
  | c :: r =>
    if 2 ≤ (indentation s).length then b! "  " ++ oneBlank (c :: r)
    else (indentation s).map (fun _ => 32) ++ c :: oneBlank (r.drop (indentation r).length)

/-- The same with string literals: they are copied, and each part between them is treated like a line of its own. -/
inductive Tidied : Str → Str → Prop
  | none {s : Str} : NoLiteral s → Tidied s (tidied s)
  | cons {s u q r v : Str} : FirstLiteral s u q r → Tidied r v → Tidied s (tidied u ++ q ++ v)

end AsmParser
