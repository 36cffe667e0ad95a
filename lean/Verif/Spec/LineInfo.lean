/-
Specification: listings that differ only in the lines about the source, or in the bytes of the instructions.
-/
import Verif.Model.Types

namespace AsmParser

/-- Blanks and semicolons. -/
def MarginOnly (m : Str) : Prop := ∀ c ∈ m, c = c! ' ' ∨ c = 9 ∨ c = c! ';'

/-- No blank, colon or slash. -/
def OneWord (w : Str) : Prop := ∀ c ∈ w, c ≠ c! ' ' ∧ c ≠ 9 ∧ c ≠ c! ':' ∧ c ≠ c! '/'

/-- A hexadecimal digit as objdump writes it. -/
def HexDigit (c : Byte) : Prop := 48 ≤ c ∧ c ≤ 57 ∨ 97 ≤ c ∧ c ≤ 102

/-- The lines that `objdump -l` adds: the name of a function as in `main():`, and positions as in `/app/a.c:12 (discriminator 1)`. -/
inductive LineInfo : Str → Prop
  | name {m w : Str} : MarginOnly m → OneWord w → (∃ c ∈ w, ¬ HexDigit c ∧ c ≠ c! ';') → LineInfo (m ++ w ++ [c! ':'])
  | position {m w b : Str} : MarginOnly m → OneWord w → c! ':' ∈ b → LineInfo (m ++ w ++ c! '/' :: b)

/-- The second list is the first without some of these lines. -/
inductive WithoutInfo : List Str → List Str → Prop
  | nil : WithoutInfo [] []
  | same {l : Str} {ls ls' : List Str} : WithoutInfo ls ls' → WithoutInfo (l :: ls) (l :: ls')
  | info {l : Str} {ls ls' : List Str} : LineInfo l → WithoutInfo ls ls' → WithoutInfo (l :: ls) ls'

/-- The line without its source position. -/
def unplaced (l : AsmLine) : AsmLine := { l with source := {} }

/-- The bytes of an instruction: hexadecimal digits in groups separated by one space. -/
structure RawBytes (w : Str) : Prop where
  chars : ∀ c ∈ w, HexDigit c ∨ c = c! ' '
  first : ∃ c ∈ w.head?, HexDigit c
  last : ∃ c ∈ w.getLast?, HexDigit c
  single : ∀ a b, w ≠ a ++ c! ' ' :: c! ' ' :: b

/-- The text of an instruction that cannot be taken for bytes: there is a character other than hexadecimal digits before the first
two blanks that follow each other.  (This character does not begin a reference, a comment or a relocation.) -/
inductive NotBytes : Str → Prop
  | intro {h r : Str} {x : Byte} : (∀ c ∈ h, HexDigit c ∨ c = c! ' ' ∨ c = 9) → (∀ c ∈ h.head?, HexDigit c) →
      (∀ a b c, h = a ++ c! ' ' :: c :: b → HexDigit c) → (∀ c ∈ [c! ' ', 9, c! 'R', c! '<', c! '>', c! '+', c! '#'], x ≠ c) →
      ¬ HexDigit x → NotBytes (h ++ x :: r)

/-- The lists of lines agree, except that in the second one the bytes of some instructions are left out. -/
inductive WithoutBytes : List Str → List Str → Prop
  | nil : WithoutBytes [] []
  | same {l : Str} {ls ls' : List Str} : WithoutBytes ls ls' → WithoutBytes (l :: ls) (l :: ls')
  | bytes {m a bs w bs' t : Str} {ls ls' : List Str} : MarginOnly m → (∀ c ∈ a, HexDigit c) → a ≠ [] →
      (∀ c ∈ bs ++ bs', c = c! ' ' ∨ c = 9) → bs' ≠ [] → RawBytes w → NotBytes t → WithoutBytes ls ls' →
      WithoutBytes ((m ++ a ++ c! ':' :: (bs ++ w ++ c! ' ' :: (bs' ++ t))) :: ls) ((m ++ a ++ c! ':' :: (bs ++ t)) :: ls')

/-- The line without the bytes of its instruction. -/
def byteless (l : AsmLine) : AsmLine := { l with opcodes := [] }

end AsmParser
