/-
C85: pretty-printing changes line ends only.
-/
import Verif.Proofs.JsonPretty
import Verif.Props.Json
import Verif.Props.DebugJson

namespace AsmParser

/-- C85 (line ends): with pretty-printing switched on, the output document and the debug dump differ from the plain ones in line
ends only, whatever the strings in them are. -/
theorem C85_breaks (d : JsonDoc) (e : DebugDoc) :
    d.writePretty.filter (· ≠ c! '\n') = d.write.filter (· ≠ c! '\n') ∧
      e.writePretty.filter (· ≠ c! '\n') = e.write.filter (· ≠ c! '\n') :=
  ⟨noBreaks_document d, noBreaks_debug e⟩

/-- C85 (document): if the strings of a document contain no control characters other than tab, a JSON reader recovers the
document from the pretty-printed text, the same as from the plain text.  (`C85_document_exact` is about the others.) -/
theorem C85_document (d : JsonDoc) (hl : ∀ l ∈ d.lines, LinePrintable l) (hd : ∀ p ∈ d.labels, NoControl p.1) :
    readJson d.writePretty =
        some (documentJson d.filter d.lines d.labels (if d.reproducible then none else some d.time)
          ((d.originalLineCount : Int) - d.lines.length)) ∧
      readJson d.writePretty = readJson d.write := by
  have h : readJson d.writePretty = _ := reads_jsonW (reads_prettyDocument d (fun l h => (hl l h).writable d.filter) (fun l h => (hl l h).opcodes) hd)
  exact ⟨h, h.trans (C20_document_partial d hl hd).symm⟩

/-- C85 (dump): the same for the debug dump. -/
theorem C85_dump (d : DebugDoc) (hl : ∀ l ∈ d.lines, DebugPrintable l) (hd : ∀ e ∈ d.labels, NoControl e.1)
    (hu : TablePrintable d.used) (hw : TablePrintable d.weaklyUsed) (ht : TablePrintable d.dataUsed)
    (ha : ∀ e ∈ d.aliased, NoControl e.1 ∧ NoControl e.2) :
    readJson d.writePretty = some (debugJson d) ∧ readJson d.writePretty = readJson d.write := by
  have h : readJson d.writePretty = _ := reads_jsonW (reads_prettyDebug d (fun l h => (hl l h).writable d.filter) hd hu hw ht ha)
  exact ⟨h, h.trans (C58_dump_partial d hl hd hu hw ht ha).symm⟩

/-- A document with all members. -/
def prettyDoc (text : Str) : JsonDoc :=
  { filter := {}, labels := [(b! "f", 1), (b! "g", 2)], time := 12, originalLineCount := 9, reproducible := false,
    lines := [{ text, opcodes := [b! "e8", b! "00"], address := some 16, hasOpcode := true,
                labels := [{ name := b! "f", startCol := 7, endCol := 8 }, { name := b! "g", startCol := 9, endCol := 10 }],
                source := { file := b! "/app/a.cpp", line := 3, column := 4 } },
              { text := b! "f:", isLabel := true }] }

/-- The hypotheses are met, and the two texts differ. -/
example : (∀ l ∈ (prettyDoc b! " call \"f\"\t\\").lines, LinePrintable l) ∧
    (∀ p ∈ (prettyDoc b! " call \"f\"\t\\").labels, NoControl p.1) ∧
    (prettyDoc b! " call \"f\"\t\\").writePretty ≠ (prettyDoc b! " call \"f\"\t\\").write := by
  refine ⟨?_, by decide, by decide +kernel⟩
  unfold prettyDoc
  simp only [List.mem_cons, List.not_mem_nil, or_false, forall_eq_or_imp, forall_eq]
  exact ⟨⟨by decide, by decide, by decide, by decide, by decide⟩, ⟨by decide, by decide, by decide, by decide, by decide⟩⟩

example : readJson (sampleDump b! " jmp .L\"1").writePretty = some (debugJson (sampleDump b! " jmp .L\"1")) ∧
    (sampleDump b! " jmp .L\"1").writePretty ≠ (sampleDump b! " jmp .L\"1").write :=
  ⟨(C85_dump _ (by unfold sampleDump; simp only [List.mem_singleton, forall_eq]; exact
    ⟨by unfold NoControl; decide, by unfold NoControl; decide, by unfold NoControl; decide, by unfold NoControl; decide,
     by unfold NoControl; decide⟩)
    (by unfold sampleDump NoControl; decide) (by unfold sampleDump TablePrintable NoControl; decide)
    (by unfold sampleDump TablePrintable NoControl; decide) (by unfold sampleDump TablePrintable NoControl; decide)
    (by unfold sampleDump NoControl; decide)).1, by decide +kernel⟩

/-- C85 is violated for control characters: the pretty-printed text of a line with a form feed is not accepted, nor is the plain
one. -/
theorem C85_violation : readJson (prettyDoc b! " x\x0c").writePretty = none := by
  have : (readJson (prettyDoc b! " x\x0c").writePretty).isNone = true := by decide +kernel
  simpa using this

end AsmParser
