/-
Specification: values of numerals.
-/
import Verif.Spec.Objdump

namespace AsmParser

/-- Value of a hexadecimal digit (lower case). -/
def hexDigit (c : Byte) : Nat := if 48 ≤ c ∧ c ≤ 57 then c.toNat - 48 else c.toNat - 87

/-- Value of a string of hexadecimal digits, most significant first. -/
def hexVal (s : Str) : Nat := s.foldl (fun n c => n * 16 + hexDigit c) 0

/-- The numbers on a line that binary mode converts are small: the hexadecimal digits at the end of the first word
(an address) denote less than 2^32, and if the line is a source reference (the first word ends at a `/`) every run of
decimal digits on it denotes less than 2^31. -/
structure SmallNumbers (w : Str) : Prop where
  hex : ∀ h, h <:+ firstWord w → (∀ c ∈ h, isHex c = true) → hexVal h < 4294967296
  dec : wordEnd w = some c! '/' → ∀ d, d <:+: w.filter (· != 13) → (∀ c ∈ d, isDigit c = true) → decVal d < 2147483648

end AsmParser
