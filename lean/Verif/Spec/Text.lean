/-
Specification vocabulary for the line utilities of text mode.
-/
import Verif.Model.Basic

namespace AsmParser

/-- A blank: space or tab. -/
def Blank (c : Byte) : Prop := c = 32 ∨ c = 9

instance (c : Byte) : Decidable (Blank c) := inferInstanceAs (Decidable (_ ∨ _))

/-! ### Tabs -/

/-- Tab expansion with tab stops every 8 columns, starting in column `col`. -/
def tabStops : Nat → Str → Str
  | _, [] => []
  | col, c :: cs =>
    if c = 9 then List.replicate (8 - col % 8) 32 ++ tabStops (col + (8 - col % 8)) cs
    else c :: tabStops (col + 1) cs

/-- Replace the tabs, in order, by the given numbers of blanks. -/
def replaceTabs : List Nat → Str → Str
  | _, [] => []
  | [], s => s
  | n :: ns, c :: cs => if c = 9 then List.replicate n 32 ++ replaceTabs ns cs else c :: replaceTabs (n :: ns) cs

/-- Number of characters other than tabs. -/
def nonTabs (s : Str) : Nat := (s.filter (· ≠ 9)).length

/-! ### Words and blanks -/

/-- The maximal pieces without blanks; `cur` is the piece being collected. -/
def wordsFrom : Str → Str → List Str
  | cur, [] => if cur = [] then [] else [cur]
  | cur, c :: cs =>
    if Blank c then (if cur = [] then wordsFrom [] cs else cur :: wordsFrom [] cs) else wordsFrom (cur ++ [c]) cs

def words (s : Str) : List Str := wordsFrom [] s

/-- The leading blanks. -/
def indentation (s : Str) : Str := s.takeWhile fun c => decide (Blank c)

/-- The characters that are not blanks. -/
def nonBlanks (s : Str) : Str := s.filter fun c => ¬ Blank c

/-- Without trailing blanks. -/
def trimRight (s : Str) : Str := (s.reverse.dropWhile fun c => decide (Blank c)).reverse

/-! ### Comments -/

/-- The characters that start a comment. -/
def CommentChar (c : Byte) : Prop := c = c! ';' ∨ c = c! '#'

instance (c : Byte) : Decidable (CommentChar c) := inferInstanceAs (Decidable (_ ∨ _))

/-! ### Quoted strings -/

/-- The end of a string literal behind the opening quote: ordinary characters and pairs of a backslash and any
character, then a quote. -/
inductive LiteralTail : Str → Prop
  | close : LiteralTail b! "\""
  | plain {c : Byte} {s : Str} : c ≠ c! '"' → c ≠ c! '\\' → LiteralTail s → LiteralTail (c :: s)
  | escape {c : Byte} {s : Str} : LiteralTail s → LiteralTail (c! '\\' :: c :: s)

/-- A string literal: `"` … `"`. -/
def IsLiteral (s : Str) : Prop := ∃ t, s = c! '"' :: t ∧ LiteralTail t

/-- The first string literal of `s`. -/
structure FirstLiteral (s u q r : Str) : Prop where
  eq : s = u ++ q ++ r
  lit : IsLiteral q
  first : ∀ u' q' r', s = u' ++ q' ++ r' → IsLiteral q' → u.length ≤ u'.length

/-- No string literal. -/
def NoLiteral (s : Str) : Prop := ∀ u q r, s = u ++ q ++ r → ¬ IsLiteral q

/-- The string literals of `s`, from left to right. -/
inductive Literals : Str → List Str → Prop
  | none {s : Str} : NoLiteral s → Literals s []
  | cons {s u q r : Str} {qs : List Str} : FirstLiteral s u q r → Literals r qs → Literals s (q :: qs)

/-- The given strings occur in `t`, in this order and without overlap. -/
def OccurInOrder : List Str → Str → Prop
  | [], _ => True
  | q :: qs, t => ∃ a b, t = a ++ q ++ b ∧ OccurInOrder qs b

end AsmParser
