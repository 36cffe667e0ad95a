/-
Property C58: the debug dump.
-/
import Verif.Proofs.DebugJson
import Verif.Spec.TextSamples

namespace AsmParser

/-- C58 (partial): if the strings of a debug dump contain no control characters other than tab, a JSON reader accepts it and
recovers the lines with all their flags, the label definitions and the tables of references.  Missing: control characters. -/
theorem C58_dump_partial (d : DebugDoc) (hl : ∀ l ∈ d.lines, DebugPrintable l) (hd : ∀ e ∈ d.labels, NoControl e.1)
    (hu : TablePrintable d.used) (hw : TablePrintable d.weaklyUsed) (ht : TablePrintable d.dataUsed)
    (ha : ∀ e ∈ d.aliased, NoControl e.1 ∧ NoControl e.2) : readJson d.write = some (debugJson d) :=
  reads_json (reads_debug d (fun l h => (hl l h).writable d.filter) hd hu hw ht ha)

/-- The dump of a line with the given text. -/
def sampleDump (text : Str) : DebugDoc :=
  { filter := {}, lines := [{ text, hasOpcode := true, labels := [⟨b! ".L\"1", 5, 9⟩] }], labels := [(b! "f", 1)],
    used := [(b! "f", [b! "g", b! "h"]), (b! "g", [])], weaklyUsed := [], dataUsed := [(b! ".L1", [b! "f"])],
    aliased := [(b! "a", b! "b")] }

example : readJson (sampleDump b! " jmp .L\"1").write = some (debugJson (sampleDump b! " jmp .L\"1")) :=
  C58_dump_partial _ (by unfold sampleDump; simp only [List.mem_singleton, forall_eq]; exact
    ⟨by unfold NoControl; decide, by unfold NoControl; decide, by unfold NoControl; decide, by unfold NoControl; decide,
     by unfold NoControl; decide⟩)
    (by unfold sampleDump NoControl; decide) (by unfold sampleDump TablePrintable NoControl; decide)
    (by unfold sampleDump TablePrintable NoControl; decide) (by unfold sampleDump TablePrintable NoControl; decide)
    (by unfold sampleDump NoControl; decide)

/-- C58 (partial): the program prints the numbers of the dump with their digits grouped in threes.  As long as they have at most
three digits this makes no difference. -/
theorem C58_grouped_partial (d : DebugDoc) (hl : ∀ l ∈ d.lines, ShortNumbers l) (hd : ∀ e ∈ d.labels, e.2 < 1000) :
    d.write groupDec = d.write := write_small d hl hd

example : (∀ l ∈ (sampleDump b! " jmp .L\"1").lines, ShortNumbers l) ∧ ∀ e ∈ (sampleDump b! " jmp .L\"1").labels, e.2 < 1000 := by
  unfold sampleDump
  simp only [List.mem_singleton, forall_eq]
  exact ⟨⟨by simp, by decide, by decide, by decide⟩, by decide⟩

example : groupDec 1234567 = b! "1,234,567" ∧ groupDec (-1000) = b! "-1,000" ∧ groupDec 0 = b! "0" := by decide +kernel

/-- The missing part of C58 does not hold: a carriage return is written as it is, which JSON forbids. -/
theorem C58_violation : readJson (sampleDump b! " ret\r").write = none := by decide +kernel

end AsmParser
