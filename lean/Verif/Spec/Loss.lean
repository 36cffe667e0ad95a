/-
Specification: which of the lines that are kept when they are read do not appear in the result.
-/
import Verif.Spec.Chains
import Verif.Spec.Lines

namespace AsmParser

/-- The labels that the usage analysis finds in use: by references to them, because they are at the address of such a label, or
because of data below such a label. -/
structure Found where
  used : List Str
  aliases : List Str
  dataAliases : List Str

/-- The line number `k` defines a label. -/
def LabelsAt (ts : List Seen) (k : Nat) : Prop := ∃ t a, ts[k]? = some t ∧ t.Defines a

/-- The line number `k` is the last one to define one of the labels `us`. -/
def MarkedAt (ts : List Seen) (us : List Str) (k : Nat) : Prop :=
  ∃ t a, ts[k]? = some t ∧ t.Defines a ∧ a ∈ us ∧ ∀ i u, k < i → ts[i]? = some u → ¬ u.Defines a

/-- The line number `k` defines a label that is not found in use, or that is defined again later. -/
def NeedlessAt (ts : List Seen) (x : Found) (k : Nat) : Prop :=
  LabelsAt ts k ∧ ¬ MarkedAt ts x.used k ∧ ¬ MarkedAt ts x.aliases k ∧ ¬ MarkedAt ts x.dataAliases k

/-- The line number `k` is in inline assembly or defines an internal label. -/
def LocalAt (ts : List Seen) (k : Nat) : Prop := ∃ t, ts[k]? = some t ∧ (t.inline = true ∨ ∃ a, t.Defines a ∧ Internal a)

/-- The line number `k` is in an unneeded part: after a label that is needless and not local, and before the next label in use. -/
def InNeedless (ts : List Seen) (x : Found) (k : Nat) : Prop :=
  ∃ j, j ≤ k ∧ NeedlessAt ts x j ∧ ¬ LocalAt ts j ∧ ∀ i, j < i → i ≤ k → ¬ MarkedAt ts x.used i

/-- Only the line number `k` is removed: a needless label that is local, or a label that is only used through an alias. -/
def RemovedAlone (ts : List Seen) (x : Found) (k : Nat) : Prop :=
  NeedlessAt ts x k ∧ LocalAt ts k ∨ ¬ MarkedAt ts x.used k ∧ MarkedAt ts x.aliases k

/-- The line number `k` is data whose position is not by the index of a file, and the last label, if there is one, is needless. -/
def LooseAt (ts : List Seen) (x : Found) (k : Nat) : Prop :=
  (∃ t, ts[k]? = some t ∧ ¬ t.Info ∧ StartsWithOneOf dataDirectives t.text) ∧
  (¬ ∃ i n c, PositionAt (ts.take (k + 1)) (some (.indexed i n c))) ∧
  ∀ j, j ≤ k → LabelsAt ts j → (∀ i, j < i → i ≤ k → ¬ LabelsAt ts i) → NeedlessAt ts x j

/-- The line number `k` is not part of the result, although it was kept when it was read. -/
def RemovedAt (f : Filter) (ts : List Seen) (x : Found) (k : Nat) : Prop :=
  f.unusedLabels = true ∧ (InNeedless ts x k ∨ RemovedAlone ts x k) ∨ f.compatmode = true ∧ f.directives = true ∧ LooseAt ts x k

/-- Each label is found in use for a reason. -/
structure Found.Sound (ts : List Seen) (x : Found) : Prop where
  used : ∀ a ∈ x.used, InUse ts a
  aliases : ∀ a ∈ x.aliases, ∃ b, SameAddress ts a b ∧ InUse ts b
  dataAliases : ∀ a ∈ x.dataAliases, ∃ r b, DataUse ts a r ∧ SameAddress ts r b ∧ InUse ts b

/-- In the compatibility mode with the filter `directives`: no line that places data also defines a label, like `.long = 5`. -/
def DataWithoutLabels (f : Filter) (ts : List Seen) : Prop :=
  f.compatmode = true → f.directives = true → ∀ t ∈ ts, StartsWithOneOf dataDirectives t.text → ∀ a, ¬ t.Defines a

end AsmParser
