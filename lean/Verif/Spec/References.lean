/-
Specification: the label references of a line of text mode.
-/
import Verif.Spec.Directives

namespace AsmParser

/-- The first character of a word that may name a label. -/
def startsWord (c : Byte) : Bool := (97 ≤ c && c ≤ 122) || (65 ≤ c && c ≤ 90) || c = c! '_' || c = c! '.' || c = c! '@'
/-- The other characters of such a word. -/
def inWord (c : Byte) : Bool := (97 ≤ c && c ≤ 122) || (65 ≤ c && c ≤ 90) || (48 ≤ c && c ≤ 57) || c = c! '_' || c = c! '.'
/-- A character that may be written directly before a name. -/
def isSigil (c : Byte) : Bool := c = c! '$' || c = c! '%'

/-- The words of a text from left to right, each with the `$` or `%` directly before it, if any.  `cur` is the word being read
and `sigil` what was found before it. -/
def nameWords : (sigil cur : Str) → Str → List (Str × Str)
  | sigil, cur, [] => if cur = [] then [] else [(sigil, cur)]
  | sigil, cur, c :: s =>
    if cur ≠ [] ∧ inWord c then nameWords sigil (cur ++ [c]) s
    else
      (if cur = [] then [] else [(sigil, cur)]) ++
        if startsWord c then nameWords (if cur = [] then sigil else []) [c] s
        else nameWords (if isSigil c then [c] else []) [] s

/-- The line up to its comment: a `;` or `#` that is the last character or has a blank behind it. -/
def codePart : Str → Str
  | [] => []
  | c :: s => if (c = c! ';' ∨ c = c! '#') ∧ (∀ d ∈ s.head?, Blank d) then [] else c :: codePart s

/-- What is behind the first word that starts with a letter; everything if nothing is behind it. -/
def operandPart (code : Str) : Str :=
  let rest := (code.dropWhile fun c => ¬ ((97 ≤ c ∧ c ≤ 122) ∨ (65 ≤ c ∧ c ≤ 90))).dropWhile fun c => ¬ Blank c
  if rest = [] then code else rest

/-- The names a line refers to: the words of its operands, each also with its sigil.  None if there is a double quote. -/
def mentioned (line : Str) : List Str :=
  let t := operandPart (codePart line)
  if c! '"' ∈ t then []
  else (nameWords [] [] t).flatMap fun w => if w.1 = [] then [w.2] else [w.2, w.1 ++ w.2]

/-- The first character except blanks is a letter. -/
def BeginsWithLetter (line : Str) : Prop := ∃ bs c r, Blanks bs ∧ Letter c ∧ line = bs ++ c :: r

/-- The first word of the line is followed by `=`. -/
def Assigned (line : Str) : Prop :=
  ∃ bs l bs' r, Blanks bs ∧ (∀ c ∈ l, SymbolChar c) ∧ Blanks bs' ∧ line = bs ++ l ++ bs' ++ c! '=' :: r

end AsmParser
