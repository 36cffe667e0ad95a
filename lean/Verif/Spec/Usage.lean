/-
Specification: references between labels, as the debug dump of text mode shows them.
-/
import Verif.Model.AsmText
import Verif.Spec.TextMode
import Verif.Spec.Directives

namespace AsmParser

/-- The table says that `a` is referred to from `b`. -/
def Refers (m : List (Str × List Str)) (a b : Str) : Prop := ∃ rs, (a, rs) ∈ m ∧ b ∈ rs

/-- `a` is referred to from code (or a directive) below the label `b`. -/
def CodeRef (g : Usage) (a b : Str) : Prop := Refers g.used a b

/-- `a` is referred to from data below the label `b`, or weakly. -/
def DataRef (g : Usage) (a b : Str) : Prop := Refers g.dataUsed a b ∨ Refers g.weaklyUsed a b

/-- There is a chain of references from an externally visible label, or from outside any label, to the label. -/
inductive Reachable (g : Usage) : Str → Prop
  | visible {a} : a ∈ g.usercode → Reachable g a
  | outside {a} : CodeRef g a [] → Reachable g a
  | code {a b} : CodeRef g a b → Reachable g b → Reachable g a
  | data {a b} : DataRef g a b → Reachable g b → Reachable g a

/-- The same, with references from code only, passing through none of the labels in `avoid`. -/
inductive CodeReachable (g : Usage) (avoid : List Str) : Str → Prop
  | visible {a} : a ∉ avoid → a ∈ g.usercode → CodeReachable g avoid a
  | outside {a} : a ∉ avoid → CodeRef g a [] → CodeReachable g avoid a
  | code {a b} : a ∉ avoid → CodeRef g a b → CodeReachable g avoid b → CodeReachable g avoid a

/-- There is a chain of references from `b` to `a` through labels that are not externally visible (`b` may be). -/
inductive Leads (g : Usage) : Str → Str → Prop
  | refl {a} : Leads g a a
  | step {a b c} : a ∉ g.usercode → (CodeRef g a b ∨ DataRef g a b) → Leads g b c → Leads g a c

/-- No reference from data is part of a cycle of references. -/
def NoDataCycle (g : Usage) : Prop := ∀ a b, a ∉ g.usercode → DataRef g a b → ¬ Leads g b a

/-- The references of an input. -/
def references (L : Locale) (f : Filter) (s : Str) : Usage := ((TParser.init f).readStream L s).filterNonLabels.usage

/-- The lines of an input before unused ones are removed. -/
def heldLines (L : Locale) (f : Filter) (s : Str) : List TLine := ((TParser.init f).readStream L s).lines

/-- A label that a line defines, or none. -/
def LabelOf (lines : List TLine) (b : Str) : Prop := b = [] ∨ ∃ l ∈ lines, l.isLabel = true ∧ l.label = b

/-- `.weak`, `.globl` and the like. -/
def symbolDirectives : List Str := [b! ".weakext", b! ".weak"] ++ globalDirectives

/-- One of the `inputs` declares the symbol with a directive in `kws`. -/
def DeclaredBy (f : Filter) (inputs : List Str) (kws : List Str) (a : Str) : Prop :=
  ∃ raw ∈ inputs, ∃ t i, Shown f t i raw ∧ DeclaresSymbol kws t a

/-- Why `a` is referred to from code below the label `b`: an instruction below `b` names `a`, or a directive declares `a`. -/
def CodeEvidence (f : Filter) (inputs : List Str) (lines : List TLine) (a b : Str) : Prop :=
  (∃ l ∈ lines, l.isLabel = false ∧ l.hasOpcode = true ∧ l.closestParentLabel = b ∧ ∃ r ∈ l.labels, r.name = a) ∨
    (LabelOf lines b ∧ DeclaredBy f inputs symbolDirectives a)

/-- Why `a` is referred to from data below the label `b`. -/
def DataEvidence (lines : List TLine) (a b : Str) : Prop :=
  LabelOf lines b ∧ ∃ l ∈ lines, l.isLabel = false ∧ l.isData = true ∧ ∃ r ∈ l.labels, r.name = a

/-- The lines end with the definition of `a`, perhaps followed by lines that place neither code nor data. -/
def LabelHere (lines : List TLine) (a : Str) : Prop :=
  ∃ l0 l ls, lines = l0 ++ l :: ls ∧ l.isLabel = true ∧ l.isAssignment = false ∧ l.label = a ∧
    ∀ x ∈ ls, x.isLabel = false ∧ x.hasOpcode = false ∧ x.isData = false

/-- The label `b` is defined at the same address as `a`, right after it. -/
def AliasOf (lines : List TLine) (b a : Str) : Prop :=
  ∃ l0 l ls, lines = l0 ++ l :: ls ∧ LabelHere l0 a ∧ l.isLabel = true ∧ l.isAssignment = false ∧ l.label = b

end AsmParser
