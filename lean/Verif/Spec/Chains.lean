/-
Specification: which labels the filter `unused_labels` finds in use, if data refers to no label.
-/
import Verif.Spec.Graph

namespace AsmParser

/-- One of the lines defines the label. -/
def Defined (ts : List Seen) (a : Str) : Prop := ∃ t ∈ ts, t.Defines a

/-- One of the lines makes the label externally visible. -/
def Exported (ts : List Seen) (a : Str) : Prop := ∃ t ∈ ts, t.Exports a

/-- A chain of references from code: the label `a`, a label whose code refers to it, and so on, up to one that is exported or that
code outside functions refers to.  No label of the chain is in `taken`, and no label is in it twice. -/
inductive Chain (ts : List Seen) : (taken : List Str) → (a : Str) → (chain : List Str) → Prop
  | exported {v a} : a ∉ v → Exported ts a → Chain ts v a [a]
  | outside {v a} : a ∉ v → Defined ts a → CodeUse ts a [] → Chain ts v a [a]
  | step {v a b c} : a ∉ v → ¬ Exported ts a → Defined ts a → CodeUse ts a b → b ≠ [] → Chain ts (a :: v) b c →
      Chain ts v a (a :: c)

/-- The labels `names` are examined one after the other.  A label is found in use if there is a chain for it; the labels of this
chain are taken then, and count for no other label.  Otherwise it may be at the address of another label for which there is a
chain, which is then taken as well. -/
inductive Examined (ts : List Seen) : (taken names used aliases : List Str) → Prop
  | done {v} : Examined ts v [] [] []
  | used {v a c names us as} : Chain ts v a c → Examined ts (c ++ v) names us as → Examined ts v (a :: names) (a :: us) as
  | alias {v a b c names us as} : (∀ c, ¬ Chain ts v a c) → SameAddress ts a b → Chain ts v b c →
      Examined ts (c ++ v) names us as → Examined ts v (a :: names) us (a :: as)
  | unused {v a names us as} : (∀ c, ¬ Chain ts v a c) → (∀ b, SameAddress ts a b → ∀ c, ¬ Chain ts v b c) →
      Examined ts v names us as → Examined ts v (a :: names) us as

end AsmParser
