/-
Specification: how much work the analysis of label usage in text mode is.
-/
import Verif.Model.Cost
import Verif.Spec.Chains

namespace AsmParser

/-- A new text-mode parser with filter `f` on a fresh thread parses `s` with `k` calls of the function that tells whether a label is
used, for some iteration order of the hash containers. -/
def Calls (L : Locale) (f : Filter) (s : Str) (k : Nat) : Prop :=
  ∃ o n p v', (TParser.init f).fromStreamC L o n s [] = some (p, v', k)

/-- Parsing never has more than `n` of these calls open at the same time, whatever the iteration order and the labels left over from
earlier parses on the same thread. -/
def Depth (L : Locale) (f : Filter) (s : Str) (n : Nat) : Prop :=
  ∀ o v, ∃ r, (TParser.init f).fromStream L o n s v = some r

/-- A chain of references between labels that are defined, without repetition: each is mentioned by the code of the next one. -/
inductive Trail (ts : List Seen) : List Str → Prop
  | one {a} : Defined ts a → Trail ts [a]
  | step {a b c} : Defined ts a → CodeUse ts a b → a ∉ b :: c → Trail ts (b :: c) → Trail ts (a :: b :: c)

/-- Nothing gives the analysis a reason to keep a label: no data mentions one, none is exported, none is mentioned outside
functions. -/
structure NoReason (ts : List Seen) : Prop where
  data : ∀ a b, Defined ts a → ¬ DataUse ts a b
  exported : ∀ a, Defined ts a → ¬ Exported ts a
  outside : ∀ a, Defined ts a → ¬ CodeUse ts a []

/-! ### A listing in which the work doubles with every step -/

/-- `a`, `ax`, `axx`, … -/
def nameA (i : Nat) : Str := c! 'a' :: List.replicate i c! 'x'
/-- `b`, `bx`, `bxx`, … -/
def nameB (i : Nat) : Str := c! 'b' :: List.replicate i c! 'x'

/-- A function that calls two others. -/
def callsBoth (f a b : Str) : List Str := [f ++ b! ":", b! " call " ++ a, b! " call " ++ b]

/-- Functions in pairs; each of the two calls both functions of the pair before. -/
def ladder : Nat → List Str
  | 0 => [nameA 0 ++ b! ":", b! " ret", nameB 0 ++ b! ":", b! " ret"]
  | i + 1 => ladder i ++ callsBoth (nameA (i + 1)) (nameA i) (nameB i) ++ callsBoth (nameB (i + 1)) (nameA i) (nameB i)

end AsmParser
