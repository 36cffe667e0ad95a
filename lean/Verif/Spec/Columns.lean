/-
Specification: the label references of a line of text mode, with their columns.
-/
import Verif.Spec.References
import Verif.Model.Types

namespace AsmParser

/-- The words of a text as in `nameWords`, each with the number of characters before it.  `n` is the number of characters before
the text. -/
def wordSpots : (n : Nat) → (sigil cur : Str) → Str → List (Nat × Str × Str)
  | n, sigil, cur, [] => if cur = [] then [] else [(n - cur.length, sigil, cur)]
  | n, sigil, cur, c :: s =>
    if cur ≠ [] ∧ inWord c then wordSpots (n + 1) sigil (cur ++ [c]) s
    else
      (if cur = [] then [] else [(n - cur.length, sigil, cur)]) ++
        if startsWord c then wordSpots (n + 1) (if cur = [] then sigil else []) [c] s
        else wordSpots (n + 1) (if isSigil c then [c] else []) [] s

/-- The blanks at the end of the code, with the characters `;` and `#` among them. -/
def marginPart (code : Str) : Str :=
  ((code.reverse.takeWhile fun c => Blank c ∨ c = c! ';' ∨ c = c! '#').reverse).dropWhile fun c => ¬ Blank c

/-- By how much the columns of a line are too large: the length of its comment and of the blanks before it. -/
def overshoot (line : Str) : Nat :=
  line.length - (codePart line).length + if operandPart (codePart line) = codePart line then 0 else (marginPart (codePart line)).length

/-- The label references of a line: the words of its operands with their first column and the one behind them, counted from 1.
A word with a sigil is listed without it and with it.  Columns have 16 bits. -/
def referencesIn (line : Str) : List AsmLabel :=
  let code := codePart line
  let t := operandPart code
  if c! '"' ∈ t then []
  else (wordSpots (code.length - t.length) [] [] t).flatMap fun w =>
    let start := w.1 + 1 + overshoot line
    let stop := start + w.2.2.length
    if w.2.1 = [] then [{ name := w.2.2, startCol := start % 65536, endCol := stop % 65536 }]
    else [{ name := w.2.2, startCol := start % 65536, endCol := stop % 65536 },
          { name := w.2.1 ++ w.2.2, startCol := (start - 1) % 65536, endCol := stop % 65536 }]

end AsmParser
