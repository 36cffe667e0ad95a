/-
Properties C20, C58 and C85: exactly which documents are valid JSON.
-/
import Verif.Proofs.JsonLexDoc
import Verif.Props.JsonPretty
import Verif.Props.TextJson

namespace AsmParser

attribute [local irreducible] Re.search Re.fullMatch

/-- C20: exactly which documents are written as JSON.  If no string that is written contains a control character (a tab may be anywhere
but in an opcode), a reader recovers the document; otherwise the output is no JSON at all.  (Opcodes never contain quotes or
backslashes, C15.) -/
theorem C20_document_exact (d : JsonDoc) (ho : ∀ l ∈ d.lines, ∀ o ∈ l.opcodes, ∀ c ∈ o, c ≠ c! '"' ∧ c ≠ c! '\\') :
    (DocWritable d → readJson d.write =
      some (documentJson d.filter d.lines d.labels (if d.reproducible then none else some d.time)
        ((d.originalLineCount : Int) - d.lines.length))) ∧
      (¬ DocWritable d → readJson d.write = none) :=
  ⟨fun h => reads_json (reads_document d h.1 (fun l hl o hoo c hc => ⟨(h.1 l hl).opcodes o hoo c hc, ho l hl o hoo c hc⟩) h.2),
    fun h => lex_json ((LexPiece.document d ho).2 h)⟩

/-- C85: pretty-printed documents are valid JSON in exactly the same cases, with the same value. -/
theorem C85_document_exact (d : JsonDoc) (ho : ∀ l ∈ d.lines, ∀ o ∈ l.opcodes, ∀ c ∈ o, c ≠ c! '"' ∧ c ≠ c! '\\') :
    readJson d.writePretty = readJson d.write := by
  by_cases h : DocWritable d
  · rw [(C20_document_exact d ho).1 h]
    exact reads_jsonW (reads_prettyDocument d h.1 (fun l hl o hoo c hc => ⟨(h.1 l hl).opcodes o hoo c hc, ho l hl o hoo c hc⟩) h.2)
  · rw [(C20_document_exact d ho).2 h]
    exact lex_json ((LexPiece.prettyDocument d ho).2 h)

/-- C58: exactly which debug dumps are JSON; the second part also for the program, which groups the digits of numbers. -/
theorem C58_dump_exact (d : DebugDoc) :
    (DumpWritable d → readJson d.write = some (debugJson d)) ∧
      (¬ DumpWritable d → readJson d.write = none ∧ readJson (d.write groupDec) = none) :=
  ⟨fun h => reads_json (reads_debug d h.lines h.labels h.used h.weak h.data h.aliased),
    fun h => ⟨lex_json ((LexPiece.dump d intToDec .num).2 h), lex_json ((LexPiece.dump d groupDec .group).2 h)⟩⟩

/-- C85: the same for pretty-printed dumps. -/
theorem C85_dump_exact (d : DebugDoc) : readJson d.writePretty = readJson d.write := by
  by_cases h : DumpWritable d
  · rw [(C58_dump_exact d).1 h]
    exact reads_jsonW (reads_prettyDebug d h.lines h.labels h.used h.weak h.data h.aliased)
  · rw [((C58_dump_exact d).2 h).1]
    exact lex_json ((LexPiece.prettyDump d).2 h)

theorem writable_view (f : Filter) (ls : List AsmLine) (ds : List LabelPair) : Writable f (ls.map AsmLine.toView) ds ↔ Writable f ls ds := by
  refine and_congr ⟨fun h l hl => ?_, fun h l hl => ?_⟩ .rfl
  · have := h _ (List.mem_map_of_mem hl)
    exact ⟨this.text, this.sect, this.file, this.refs, this.opcodes⟩
  · obtain ⟨l, hl', rfl⟩ := List.mem_map.1 hl
    have := h _ hl'
    exact ⟨this.text, this.sect, this.file, this.refs, this.opcodes⟩

/-- C20 for binary mode, all inputs: the output is JSON exactly if no string in it contains a control character (tabs are allowed
except in opcodes). -/
theorem C20_binary_exact (L : Locale) (f : Filter) (s : Str) (time : Int) :
    (Writable f (objParse L f s).lines (objParse L f s).labels → readJson ((objParse L f s).outputJson time) =
      some (documentJson f (objParse L f s).lines (objParse L f s).labels (some time)
        (((objParse L f s).totalLines : Int) - (objParse L f s).lines.length))) ∧
      (¬ Writable f (objParse L f s).lines (objParse L f s).labels → readJson ((objParse L f s).outputJson time) = none) := by
  have hf := parse_filter L f s
  have hr : (objParse L f s).reproducible = false := by
    refine objParse_induct (P := fun p => p.reproducible = false) rfl ?_ s
    intro p c h _
    rw [feed_reproducible, h]
  have := C20_document_exact ((objParse L f s).jsonDoc time) (by
    intro l hl o ho c hc
    simp only [OParser.jsonDoc, List.mem_map] at hl
    obtain ⟨l, hl, rfl⟩ := hl
    rcases (C15_opcode_tokens_partial L f s l hl o ho).2 c hc with h | rfl
    · revert h
      exact byte_forall (P := fun c => isHex c = true → c ≠ c! '"' ∧ c ≠ c! '\\') (by decide +kernel)
    · decide)
  have hw : DocWritable ((objParse L f s).jsonDoc time) ↔ Writable f (objParse L f s).lines (objParse L f s).labels := by
    unfold DocWritable OParser.jsonDoc
    simp only [hf]
    exact writable_view _ _ _
  rw [hw] at this
  rw [OParser.outputJson]
  refine ⟨fun h => ?_, this.2⟩
  rw [this.1 h]
  simp only [OParser.jsonDoc, hf, hr, documentJson, List.map_map, List.length_map]
  rfl

/-- C20 for binary mode: if the input contains no control characters other than tab and line ends, the output is JSON exactly if no
opcode contains a tab. -/
theorem C20_binary_tab (L : Locale) (f : Filter) (s : Str) (time : Int) (hs : ∀ c ∈ s, 32 ≤ c ∨ c = 9 ∨ c = 10 ∨ c = 13) :
    readJson ((objParse L f s).outputJson time) = none ↔ ∃ l ∈ (objParse L f s).lines, ∃ o ∈ l.opcodes, (9 : Byte) ∈ o := by
  constructor
  · intro h
    apply Classical.byContradiction
    intro hn
    rw [C20_binary_hex L f s time hs fun l hl o ho c hc => ?_] at h
    · cases h
    · rcases (C15_opcode_tokens_partial L f s l hl o ho).2 c hc with h | rfl
      · exact h
      · exact absurd ⟨l, hl, o, ho, hc⟩ hn
  · rintro ⟨l, hl, o, ho, h9⟩
    exact (C20_binary_exact L f s time).2 fun h => absurd ((h.1 l hl).opcodes o ho 9 h9) (by decide)

/-- C20 for text mode, all inputs. -/
theorem C20_text_exact (L : Locale) (f : Filter) (s : Str) (p : TParser) (time : Int) (h : TextResult L f s p) :
    (Writable f (p.lines.map TLine.toAsm) (numberedLabels 1 p.lines) → readJson (p.outputJson time) =
      some (documentJson f (p.lines.map TLine.toAsm) (numberedLabels 1 p.lines) (some time)
        ((p.totalLines : Int) - p.lines.length))) ∧
      (¬ Writable f (p.lines.map TLine.toAsm) (numberedLabels 1 p.lines) → readJson (p.outputJson time) = none) := by
  have := C20_document_exact (p.jsonDoc time) (by
    intro l hl o ho
    simp only [TParser.jsonDoc, List.mem_map] at hl
    obtain ⟨l, hl, rfl⟩ := hl
    exact absurd ho (by simp [TLine.toAsm]))
  have hw : DocWritable (p.jsonDoc time) ↔ Writable f (p.lines.map TLine.toAsm) (numberedLabels 1 p.lines) := by
    unfold DocWritable TParser.jsonDoc
    simp only [result_filter h, redetermine_eq]
  rw [hw] at this
  rw [TParser.outputJson]
  refine ⟨fun hd => ?_, this.2⟩
  rw [this.1 hd]
  simp only [TParser.jsonDoc, result_filter h, redetermine_eq, List.length_map]
  rfl

/-- C20: if a line of the text output contains a control character other than tab, for example the carriage return of a file with
the line ends of Windows, the JSON output is invalid. -/
theorem C20_text_control (L : Locale) (f : Filter) (s : Str) (p : TParser) (time : Int) (h : TextResult L f s p)
    (c : Byte) (hc : c ∈ p.outputText) (h1 : c < 32) (h2 : c ≠ 9) (h3 : c ≠ 10) : readJson (p.outputJson time) = none := by
  have : ∃ l ∈ p.lines, c ∈ l.text := by
    unfold TParser.outputText at hc
    obtain ⟨l, hl, hc⟩ := List.mem_flatMap.1 hc
    rcases List.mem_append.1 hc with hc | hc
    · exact ⟨l, hl, hc⟩
    · exact absurd (List.mem_singleton.1 hc) h3
  obtain ⟨l, hl, hc⟩ := this
  refine (C20_text_exact L f s p time h).2 fun hw => ?_
  rcases (hw.1 _ (List.mem_map_of_mem hl)).text c hc with h4 | h4
  · exact absurd h1 (UInt8.not_lt.2 h4)
  · exact h2 h4

/-- `sampleDump` and `prettyDoc` with and without a control character. -/
example : (sampleDump b! " ret\r").lines.all (fun l => l.text.all fun c => 32 ≤ c || c == 9) = false ∧
    readJson (sampleDump b! " ret\r").writePretty = none := by
  refine ⟨by decide +kernel, ?_⟩
  rw [C85_dump_exact]
  exact C58_violation

/-- A tab in an opcode makes the output invalid, one in a text does not. -/
example : readJson ((objParse Locale.utf8 {} b! "1: 55\t5  x\n").outputJson 0) = none ∧
    (readJson ((objParse Locale.utf8 {} b! "1: 55  x\ty\n").outputJson 0)).isSome = true := by
  refine ⟨(C20_binary_tab _ _ _ _ (by decide +kernel)).2 C15_violation, by decide +kernel⟩

end AsmParser
