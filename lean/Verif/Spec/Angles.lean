/-
Specification: the names in angle brackets in the text of an instruction.
-/
import Verif.Spec.Names
import Verif.Spec.TextMode

namespace AsmParser

/-- `<`, `>` or `+`. -/
def angleMark (c : Byte) : Bool := c == c! '<' || c == c! '>' || c == c! '+'

/-- The characters before the first `<`, `>` or `+`, unless this is a `<` or there is none. -/
def upToMark (s : Str) : Option Str :=
  match s.dropWhile (fun c => !angleMark c) with
  | c :: _ => if c = c! '<' then none else some (s.takeWhile fun c => !angleMark c)
  | [] => none

/-- For every `<` the name after it, which ends before `>` or `+`, and its first column; the text begins in column `n`. -/
def angleNames : Nat → Str → List (Str × Nat)
  | _, [] => []
  | n, c :: s =>
    (if c = c! '<' then ((upToMark s).map fun name => (name, n + 1)).toList else []) ++ angleNames (n + 1) s

/-- For every `<` the text up to and including it and the name after it, as in `angleNames`; `pre` is the text before `s`. -/
def angleSpans : Str → Str → List (Str × Str)
  | _, [] => []
  | pre, c :: s =>
    (if c = c! '<' then ((upToMark s).map fun name => (pre ++ [c], name)).toList else []) ++ angleSpans (pre ++ [c]) s

/-- The number of characters of a UTF-8 text: all bytes but those that continue a character. -/
def charCount (s : Str) : Nat := (s.filter fun c => !(128 ≤ c && c ≤ 191)).length

/-- The text before a comment. -/
def beforeHash (s : Str) : Str := s.takeWhile (· ≠ c! '#')

/-- Every `<` in the line is followed by `>` or `+`, with no `#` in between. -/
def AnglesClosed (line : Str) : Prop :=
  ∀ a b, line = a ++ c! '<' :: b → ∃ x c r, b = x ++ c :: r ∧ (c = c! '>' ∨ c = c! '+') ∧ c! '#' ∉ x

end AsmParser
