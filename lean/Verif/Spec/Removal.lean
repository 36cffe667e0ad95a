/-
Specification: which lines text mode removes after it has read the whole input.
-/
import Verif.Spec.Usage

namespace AsmParser

/-- The line defines a label that is not used in any way. -/
def TLine.Unused (l : TLine) : Prop :=
  l.isLabel = true ∧ l.isUsed = false ∧ l.isUsedThroughAlias = false ∧ l.isUsedDataThroughAlias = false

/-- An unused label of the source program, not in inline assembly: a function or variable nobody needs. -/
def TLine.StartsRemoval (l : TLine) : Prop := l.Unused ∧ l.isInternalLabel = false ∧ l.isInlineAsm = false

/-- The last line of `ls` is in an unused function or variable: after its label there was no label that is used. -/
def InUnused (ls : List TLine) : Prop :=
  ∃ a l b, ls = a ++ l :: b ∧ l.StartsRemoval ∧ ∀ x ∈ b, x.isLabel = true → x.isUsed = false

/-- The line is removed, but not what follows: an unused compiler-generated label or label in inline assembly, or any label that
is only used through another label at the same address. -/
def TLine.RemovedAlone (l : TLine) : Prop :=
  l.Unused ∧ (l.isInternalLabel = true ∨ l.isInlineAsm = true) ∨
    l.isLabel = true ∧ l.isUsed = false ∧ l.isUsedThroughAlias = true

/-- The last line of `ls` is data outside procedures, and the last label is unused (or there is none). -/
def LooseData (ls : List TLine) : Prop :=
  (∃ a l, ls = a ++ [l] ∧ l.isData = true ∧ l.source.insideProc = false) ∧
  ∀ a l b, ls = a ++ l :: b → l.isLabel = true → (∀ x ∈ b, x.isLabel = false) → l.Unused

/-- The line `l` after the lines `before` is removed. -/
def Removed (f : Filter) (before : List TLine) (l : TLine) : Prop :=
  (f.unusedLabels = true ∧ (InUnused (before ++ [l]) ∨ l.RemovedAlone)) ∨
  (f.compatmode = true ∧ f.directives = true ∧ LooseData (before ++ [l]))

/-- What is left of `ls` after the lines `before`. -/
def remaining (drop : List TLine → TLine → Bool) : List TLine → List TLine → List TLine
  | _, [] => []
  | before, l :: ls =>
    if drop before l then remaining drop (before ++ [l]) ls else l :: remaining drop (before ++ [l]) ls

end AsmParser
