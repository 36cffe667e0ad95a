/-
Specification: well-formed UTF-8 (RFC 3629).
-/
import Verif.Spec.Json

namespace AsmParser

/-- A Unicode scalar value: a code point that is not a surrogate. -/
def Scalar (n : Nat) : Prop := (n < 0xD800 ∨ 0xE000 ≤ n) ∧ n < 0x110000

/-- The bytes are the encodings of a sequence of scalar values. -/
def ValidUtf8 (s : Str) : Prop := ∃ ns : List Nat, (∀ n ∈ ns, Scalar n) ∧ s = ns.flatMap utf8Encode

/-- All bytes are ASCII. -/
def Ascii7 (s : Str) : Prop := ∀ c ∈ s, c < 128

instance (s : Str) : Decidable (Ascii7 s) := inferInstanceAs (Decidable (∀ c ∈ s, c < 128))

end AsmParser
