/-
Specification: circles of references, and how many of their references are from code and from data.
-/
import Verif.Spec.Chains

namespace AsmParser

/-- `a` is referred to from below the label `b`: from code or from data. -/
def RefersTo (ts : List Seen) (fromCode : Bool) (a b : Str) : Prop :=
  if fromCode then Defined ts a ∧ CodeUse ts a b else DataUse ts a b

/-- A chain of `c` references from code and `d` references from data that leads from `a` to `b`, through labels that are not
exported (`b` may be). -/
inductive RefChain (ts : List Seen) : Str → Nat → Nat → Str → Prop
  | refl {a} : RefChain ts a 0 0 a
  | code {a b c d x} : ¬ Exported ts a → RefersTo ts true a b → RefChain ts b c d x → RefChain ts a (c + 1) d x
  | data {a b c d x} : ¬ Exported ts a → RefersTo ts false a b → RefChain ts b c d x → RefChain ts a c (d + 1) x

/-- The first label of the list, or `z` if it is empty. -/
def firstOf (c : List (Str × Bool)) (z : Str) : Str := (c.map (·.1)).headD z

/-- Each label of the list is referred to from the next one, the last one from `z`.  The flag of a label says whether this is a
reference from code. -/
def Linked (R : Bool → Str → Str → Prop) : List (Str × Bool) → Str → Prop
  | [], _ => True
  | (a, k) :: r, z => R k a (firstOf r z) ∧ Linked R r z

/-- A circle of different labels with as many references from code as from data. -/
structure BalancedCircle (R : Bool → Str → Str → Prop) (c : List (Str × Bool)) : Prop where
  linked : Linked R c (firstOf c [])
  nonempty : c ≠ []
  different : (c.map (·.1)).Nodup
  balanced : c.countP (fun e => e.2) = c.countP (fun e => !e.2)

end AsmParser
