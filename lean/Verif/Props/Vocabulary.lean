/-
The vocabulary of the specifications: the character classes and numerals that the property statements mention are
pinned down by explicit tables, so that they do not depend on how the model (and hence the code) computes them.
-/
import Verif.Spec.Names
import Verif.Proofs.ObjRead
import Verif.Spec.Numbers

namespace AsmParser

/-- Hexadecimal digits are `0`-`9`, `a`-`f`. -/
theorem vocabulary_isHex (c : Byte) : isHex c = true ↔ c ∈ b! "0123456789abcdef" :=
  byte_forall (P := fun c => isHex c = true ↔ c ∈ b! "0123456789abcdef") (by decide +kernel)

/-- Decimal digits. -/
theorem vocabulary_isDigit (c : Byte) : isDigit c = true ↔ c ∈ b! "0123456789" :=
  byte_forall (P := fun c => isDigit c = true ↔ c ∈ b! "0123456789") (by decide +kernel)

/-- Letters. -/
theorem vocabulary_isAlpha (c : Byte) : isAlpha c = true ↔ c ∈ b! "abcdefghijklmnopqrstuvwxyz" ∨ c ∈ b! "ABCDEFGHIJKLMNOPQRSTUVWXYZ" :=
  byte_forall (P := fun c => isAlpha c = true ↔ c ∈ b! "abcdefghijklmnopqrstuvwxyz" ∨ c ∈ b! "ABCDEFGHIJKLMNOPQRSTUVWXYZ") (by decide +kernel)

/-- Word characters are letters, digits and the underscore. -/
theorem vocabulary_isWord (c : Byte) : isWord c = true ↔ isAlpha c = true ∨ isDigit c = true ∨ c = c! '_' :=
  byte_forall (P := fun c => isWord c = true ↔ isAlpha c = true ∨ isDigit c = true ∨ c = c! '_') (by decide +kernel)

/-- Blanks are space and tab. -/
theorem vocabulary_isWhitespace (c : Byte) : isWhitespace c = true ↔ c = 32 ∨ c = 9 :=
  byte_forall (P := fun c => isWhitespace c = true ↔ c = 32 ∨ c = 9) (by decide +kernel)

theorem vocabulary_isH (c : Byte) : isH c = true ↔ c = 32 ∨ c = 9 :=
  byte_forall (P := fun c => isH c = true ↔ c = 32 ∨ c = 9) (by decide +kernel)

/-- White space is blank, line feed, vertical tab, form feed, carriage return. -/
theorem vocabulary_isSpace (c : Byte) : isSpace c = true ↔ c = 32 ∨ c = 9 ∨ c = 10 ∨ c = 11 ∨ c = 12 ∨ c = 13 :=
  byte_forall (P := fun c => isSpace c = true ↔ c = 32 ∨ c = 9 ∨ c = 10 ∨ c = 11 ∨ c = 12 ∨ c = 13) (by decide +kernel)

/-- Decimal numerals: each further digit multiplies by ten. -/
theorem vocabulary_decVal : decVal [] = 0 ∧
    ∀ (s : Str) (d : Fin 10), decVal (s ++ [(b! "0123456789")[d]]) = decVal s * 10 + d := by
  refine ⟨rfl, fun s d => ?_⟩
  simp only [decVal, List.foldl_append, List.foldl_cons, List.foldl_nil]
  revert d; intro d
  have : ((b! "0123456789")[d]).toNat - 48 = (d : Nat) := by revert d; decide
  omega

/-- Hexadecimal numerals: each further digit multiplies by sixteen. -/
theorem vocabulary_hexVal : hexVal [] = 0 ∧
    ∀ (s : Str) (d : Fin 16), hexVal (s ++ [(b! "0123456789abcdef")[d]]) = hexVal s * 16 + d := by
  refine ⟨rfl, fun s d => ?_⟩
  simp only [hexVal, List.foldl_append, List.foldl_cons, List.foldl_nil]
  have : hexDigit ((b! "0123456789abcdef")[d]) = (d : Nat) := by revert d; decide
  omega

example : hexVal b! "1f" = 31 ∧ decVal b! "2026" = 2026 := by decide

end AsmParser
