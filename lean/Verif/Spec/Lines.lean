/-
Specification: what text mode says about each line.
-/
import Verif.Spec.Graph
import Verif.Spec.Removal

namespace AsmParser

/-- The line is a CUDA function header. -/
def Seen.Header (t : Seen) : Prop := ¬ t.Info ∧ StartsCuda t.text

/-- The line is kept when it is read: it is no comment that is filtered out, and with the filter `directives` it is no plain
directive and gives no source information, unless it contains `.inst` or is part of the header of a CUDA function. -/
def Seen.Kept (f : Filter) (t : Seen) : Prop :=
  t.skipped = false ∧
    (t.params = true ∨ t.Header ∨ f.directives = false ∨ ¬ PlainDirective t.text ∧ (t.Info → Contains t.text b! ".inst"))

/-- `l` says what is known about the line `t`, whose number is `k`, of the lines `ts`; `defined` tells which labels it may refer
to. -/
structure Describes (ts : List Seen) (defined : Str → Bool) (k : Nat) (t : Seen) (l : TLine) : Prop where
  text : l.text = t.text
  /-- the label it defines -/
  label : l.isLabel = true ∧ t.Defines l.label ∨ l.isLabel = false ∧ l.label = [] ∧ ∀ x, ¬ t.Defines x
  internal : l.isInternalLabel = true ↔ l.isLabel = true ∧ Internal l.label
  assignment : l.isAssignment = true ↔ l.isLabel = true ∧ Assigns t.text l.label
  data : l.isData = true ↔ ¬ t.Info ∧ StartsWithOneOf dataDirectives t.text
  opcode : l.hasOpcode = true ↔ t.Header ∧ Instruction true t.text ∨ ¬ t.Header ∧ Instruction t.code t.text
  directive : l.isDirective = true ↔ t.Info ∨ l.isLabel = false ∧ l.isData = false ∧ t.params = false ∧ Directive t.text
  inlineAsm : l.isInlineAsm = t.inline
  /-- the function in which it is; for the label of the function itself and for assignments nothing -/
  parent : ∃ q, FunctionAt (ts.take (k + 1)) q ∧ l.closestParentLabel = if l.isAssignment = true ∨ l.label = q then [] else q
  /-- the labels it mentions -/
  refs : l.labels.map (·.name) =
    if l.isLabel = false ∧ (l.hasOpcode = true ∨ l.isData = true) then (mentioned t.text).filter defined else []

end AsmParser
