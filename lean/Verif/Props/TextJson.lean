/-
Properties C20, C58 and C59 for the JSON output of text mode, end to end.
-/
import Verif.Proofs.TextChars
import Verif.Props.Json
import Verif.Props.DebugJson
import Verif.Proofs.TextInv
import Verif.Proofs.TextOut
import Verif.Proofs.TextRead
import Verif.Proofs.TextFacts
import Verif.Spec.TextSamples

namespace AsmParser

attribute [local irreducible] Re.search Re.fullMatch

/-! ### C59 -/

/-- Counting while reading. -/
structure CountInv (done : List Str) (p : TParser) : Prop where
  total : p.totalLines = done.length
  lines : p.lines.length ≤ done.length
  carry : p.st.text ≠ [] → ∃ l, done.getLast? = some l ∧ Blanks l

theorem count_read (L : Locale) (f : Filter) (s : Str) :
    ((TParser.init f).readStream L s).lines.length ≤ ((TParser.init f).readStream L s).totalLines ∧
    (((TParser.init f).readStream L s).totalLines = (inputLines s).length ∨
      ((TParser.init f).readStream L s).totalLines = (inputLines s).length + 1 ∧
        ∃ l, (inputLines s).getLast? = some l ∧ Blanks l) := by
  obtain ⟨e, he, h, -⟩ := readStream_lines L f CountInv ⟨rfl, Nat.le_refl _, fun h => absurd rfl h⟩
    (fun done p l _ _ _ h hs => by
      refine ⟨?_, ?_, ?_⟩
      · rw [hs.totalLines, List.length_append]
        show p.totalLines + 1 = _
        rw [h.total]; rfl
      · have hl : (p.addText l).lines.length ≤ done.length := h.lines
        rw [List.length_append, List.length_singleton]
        rcases hs.lines with ⟨-, am, -, -⟩ | ⟨x, -, -, e, -, -⟩ | ⟨ls, am, ln, e, -⟩
        · rw [← am.length]; omega
        · rw [e, List.length_append, List.length_singleton]; omega
        · rw [e, List.length_append, List.length_singleton, ← am.length]; omega
      · intro ht
        refine ⟨l, by simp, ?_⟩
        cases hw : isEmptyOrJustWhitespace (p.addText l).st.text with
        | false => exact absurd (hs.text hw) ht
        | true =>
          rw [blanks_white] at hw
          exact fun c hc => hw c (List.mem_append_right _ hc)) s
  refine ⟨h.total ▸ h.lines, ?_⟩
  rcases he with rfl | ⟨rfl, q, hq, hi⟩
  · left; rw [h.total, List.append_nil]
  · right; exact ⟨by rw [h.total, List.length_append]; rfl, hi.carry hq⟩

theorem count_result {L : Locale} {f : Filter} {s : Str} {p : TParser} (h : TextResult L f s p) :
    p.totalLines = ((TParser.init f).readStream L s).totalLines ∧ p.lines.length ≤ ((TParser.init f).readStream L s).lines.length := by
  obtain ⟨o, n, v, v', h⟩ := h
  obtain ⟨us, ls, lines, fl, ub, rfl, h1, sub, h2, h3, -⟩ := outcome h
  refine ⟨rfl, ?_⟩
  have e1 := congrArg List.length h1
  simp only [List.length_map] at e1
  show lines.length ≤ _
  rw [h3, List.length_map, ← e1]
  exact h2.length_le

/-- C59 (partial): if the last line of the input is not blank, the filtered count is the number of lines of the input minus the
number of lines of the output.  Missing: inputs that end in a blank line, for which the count may be one more
(`C59_bounds`, `C59_violation`). -/
theorem C59_filtered_count_partial (L : Locale) (f : Filter) (s : Str) (p : TParser) (time : Int) (h : TextResult L f s p)
    (hl : ∀ l, (inputLines s).getLast? = some l → ¬ Blanks l) :
    (p.jsonDoc time).filteredCount = ((inputLines s).length : Int) - (p.lines.length : Int) := by
  have e : p.totalLines = (inputLines s).length := by
    rw [(count_result h).1]
    rcases (count_read L f s).2 with e | ⟨-, l, h1, h2⟩
    · exact e
    · exact absurd h2 (hl l h1)
  simp [TParser.jsonDoc, JsonDoc.filteredCount, e]

/-- The filtered count is never negative, and at most one too large. -/
theorem C59_bounds (L : Locale) (f : Filter) (s : Str) (p : TParser) (time : Int) (h : TextResult L f s p) :
    0 ≤ (p.jsonDoc time).filteredCount ∧
    ((inputLines s).length : Int) - (p.lines.length : Int) ≤ (p.jsonDoc time).filteredCount ∧
    (p.jsonDoc time).filteredCount ≤ ((inputLines s).length : Int) - (p.lines.length : Int) + 1 := by
  obtain ⟨h1, h2⟩ := count_result h
  obtain ⟨h3, h4⟩ := count_read L f s
  simp only [TParser.jsonDoc, JsonDoc.filteredCount, List.length_map]
  rw [h1]
  refine ⟨by omega, ?_, ?_⟩ <;> rcases h4 with h4 | ⟨h4, -⟩ <;> omega

/-- Of these two lines none is filtered, but one is reported: a blank line at the end is counted twice. -/
theorem C59_violation : ∃ p, TextResult Locale.utf8 {} b! "main:\n\t\n" p ∧
    p.lines.length = 2 ∧ (inputLines b! "main:\n\t\n").length = 2 ∧ (p.jsonDoc 0).filteredCount = 1 :=
  textRun_exists (P := fun p => p.lines.length = 2 ∧ (inputLines b! "main:\n\t\n").length = 2 ∧ (p.jsonDoc 0).filteredCount = 1)
    (by decide +kernel)

/-- With filters: the sample has 22 lines. -/
example : (∀ l, (inputLines sampleAsm).getLast? = some l → ¬ Blanks l) ∧
    ((textRun { directives := true, commentOnly := true } sampleAsm).map fun p => ((p.jsonDoc 0).filteredCount, p.lines.length)) =
      some (11, 11) := by
  refine ⟨?_, by decide +kernel⟩
  intro l hl
  have e : (inputLines sampleAsm).getLast? = some b! "\t.long\tsquare" := by decide +kernel
  rw [e] at hl
  cases hl
  decide

/-! ### C20, C58 -/

/-- The label lines with their numbers, starting with `n`. -/
def numberedLabels (n : Nat) (ls : List TLine) : List (Str × Nat) :=
  (ls.zipIdx n).filterMap fun x => if x.1.isLabel then some (x.1.label, x.2) else none

theorem redetermine_eq (n : Nat) (ls : List TLine) : redetermineLabels n ls = numberedLabels n ls := by
  unfold numberedLabels
  induction ls generalizing n with
  | nil => rfl
  | cons l ls ih =>
    unfold redetermineLabels
    rw [List.zipIdx_cons, List.filterMap_cons, ih]
    cases l.isLabel <;> rfl

/-- No control characters other than tab and line ends. -/
def PlainText (s : Str) : Prop := ∀ c ∈ s, 32 ≤ c ∨ c = 9 ∨ c = 10

theorem result_noControl {L : Locale} {f : Filter} {s : Str} {p : TParser} (h : TextResult L f s p) (hs : PlainText s) :
    ParserCs (fun c => 32 ≤ c ∨ c = 9) p := by
  refine result_cs (.inl (by decide)) (.inl (by decide)) h fun c hc h10 => ?_
  rcases hs c hc with h | h | h
  · exact .inl h
  · exact .inr h
  · exact absurd h h10

theorem result_filter {L : Locale} {f : Filter} {s : Str} {p : TParser} (h : TextResult L f s p) : p.filter = f := by
  obtain ⟨o, n, v, v', h⟩ := h
  obtain ⟨us, ls, lines, fl, ub, rfl, -⟩ := outcome h
  exact (readStream_inv L f (fun _ => True) trivial (fun _ _ _ => trivial) (fun _ _ _ _ _ => trivial) s).2.1

/-- C20, end to end for text mode: if the input contains no control characters other than tab and line feed, the JSON output is
accepted by a reader, which recovers the lines, the label definitions, the clock and the number of dropped lines.  (That the
strings of a line may still be read is the subject of C36.) -/
theorem C20_text (L : Locale) (f : Filter) (s : Str) (p : TParser) (time : Int) (h : TextResult L f s p) (hs : PlainText s) :
    readJson (p.outputJson time) =
      some (documentJson f (p.lines.map TLine.toAsm) (numberedLabels 1 p.lines) (some time)
        ((p.totalLines : Int) - p.lines.length)) := by
  have hc := result_noControl h hs
  have := C20_document_partial (p.jsonDoc time) (by
    intro l hl
    simp only [TParser.jsonDoc, List.mem_map] at hl
    obtain ⟨l, hl, rfl⟩ := hl
    have := hc.lines l hl
    exact ⟨this.text, this.sect, this.file, this.refs, fun o ho => absurd ho (by simp [TLine.toAsm])⟩)
    (redetermine_cs hc.lines)
  rw [TParser.outputJson, this]
  simp only [TParser.jsonDoc, result_filter h, redetermine_eq, List.length_map]
  rfl

/-- The sample listing meets the hypothesis, and so does every result for it. -/
example : PlainText sampleAsm ∧ ∃ p, TextResult Locale.utf8 { unusedLabels := true } sampleAsm p ∧ p.lines ≠ [] :=
  ⟨by unfold PlainText; decide +kernel, textRun_exists (P := fun p => p.lines ≠ []) (by decide +kernel)⟩

/-- C20 is violated in text mode by an input with the line ends of Windows: the carriage return is kept and written as it
is. -/
theorem C20_violation_crlf : ∃ p, TextResult Locale.utf8 {} b! "ret\x0d\n" p ∧ readJson (p.outputJson 0) = none :=
  textRun_exists (P := fun p => readJson (p.outputJson 0) = none) (by decide +kernel)

/-- `shown` is the table `m` with its rows, and the names in a row, in some order. -/
def ShowsTable (m shown : List (Str × List Str)) : Prop :=
  ∃ g : List Str → List Str, (∀ l, (g l).Perm l) ∧ (m.map fun e => (e.1, g e.2)).Perm shown

theorem showsTable_sets (o : DumpOrder) (m : List (Str × List Str)) : ShowsTable m (o.sets m) :=
  ⟨o.refs, o.refs_perm, ((o.table_perm m).map _).symm⟩

theorem tablePrintable_sets {o : DumpOrder} {m : List (Str × List Str)} (h : TableCs (fun c => 32 ≤ c ∨ c = 9) m) :
    TablePrintable (o.sets m) := by
  intro e he
  unfold DumpOrder.sets at he
  rw [List.mem_map] at he
  obtain ⟨e', h', rfl⟩ := he
  have := h e' ((o.table_perm m).mem_iff.1 h')
  exact ⟨this.1, fun r hr => this.2 r ((o.refs_perm _).mem_iff.1 hr)⟩

/-- C58, end to end: if the input contains no control characters other than tab and line feed, the debug dump is accepted by a
reader, which recovers the lines with their flags, the label definitions, and the references to labels from code, the weak
references, the references from data and the aliases, each in some order. -/
theorem C58_text (L : Locale) (f : Filter) (s : Str) (p : TParser) (o : DumpOrder) (h : TextResult L f s p) (hs : PlainText s) :
    ∃ used weak data aliased, ShowsTable p.usage.used used ∧ ShowsTable p.usage.weaklyUsed weak ∧
      ShowsTable p.usage.dataUsed data ∧ p.usage.aliased.Perm aliased ∧
      readJson (p.outputDebugJson o) = some (.obj [
        (b! "asm", .arr (p.lines.map fun l => debugLineJson (!f.dontMaskFilenames) l.toAsm)),
        (b! "labelDefinitions", .obj ((numberedLabels 1 p.lines).map fun e => (e.1, .num e.2))),
        (b! "used_labels", .arr (used.map fun e => .obj [(e.1, refsJson e.2)])),
        (b! "used_weak_labels", .obj (weak.map fun e => (e.1, refsJson e.2))),
        (b! "used_data_labels", .obj (data.map fun e => (e.1, refsJson e.2))),
        (b! "aliased_labels", .obj (aliased.map fun e => (e.1, .str e.2)))]) := by
  have hc := result_noControl h hs
  refine ⟨o.sets p.usage.used, o.sets p.usage.weaklyUsed, o.sets p.usage.dataUsed, o.alias p.usage.aliased,
    showsTable_sets _ _, showsTable_sets _ _, showsTable_sets _ _, (o.alias_perm _).symm, ?_⟩
  have := C58_dump_partial (p.debugDoc o) (by
    intro l hl
    simp only [TParser.debugDoc, List.mem_map] at hl
    obtain ⟨l, hl, rfl⟩ := hl
    have := hc.lines l hl
    exact ⟨this.text, this.sect, this.parent, this.file, this.refs⟩)
    (redetermine_cs hc.lines) (tablePrintable_sets hc.usage.used) (tablePrintable_sets hc.usage.weak)
    (tablePrintable_sets hc.usage.data) (fun e he => hc.usage.aliased e ((o.alias_perm _).mem_iff.1 he))
  rw [TParser.outputDebugJson, this]
  simp only [debugJson, TParser.debugDoc, result_filter h, redetermine_eq, List.map_map]
  rfl

/-- A dump with references from code and from data, and an alias. -/
example : PlainText b! "a:\nb:\n jmp c\nc:\n ret\nd:\n .long a\n" ∧
    ∃ p, TextResult Locale.utf8 {} b! "a:\nb:\n jmp c\nc:\n ret\nd:\n .long a\n" p ∧
      p.usage.used ≠ [] ∧ p.usage.dataUsed ≠ [] ∧ p.usage.aliased = [(b! "b", b! "a")] :=
  ⟨by unfold PlainText; decide +kernel,
   textRun_exists (P := fun p => p.usage.used ≠ [] ∧ p.usage.dataUsed ≠ [] ∧ p.usage.aliased = [(b! "b", b! "a")]) (by decide +kernel)⟩

/-- The dump of the program is the dump of `C58_text` if the input has less than 1000 output lines, and source lines, columns
and label columns are below 1000. -/
theorem C58_program_partial (p : TParser) (o : DumpOrder) (hn : p.lines.length < 1000)
    (hl : ∀ l ∈ p.lines, l.source.line.natAbs < 1000 ∧ l.source.column.natAbs < 1000 ∧
      ∀ r ∈ l.labels, r.startCol < 1000 ∧ r.endCol < 1000) :
    p.outputDebugJson o groupDec = p.outputDebugJson o := by
  refine C58_grouped_partial _ ?_ ?_
  · intro l h
    simp only [TParser.debugDoc, List.mem_map] at h
    obtain ⟨l, h, rfl⟩ := h
    exact ⟨by simp [TLine.toAsm], (hl l h).1, (hl l h).2.1, (hl l h).2.2⟩
  · intro e he
    simp only [TParser.debugDoc, redetermine_eq] at he
    unfold numberedLabels at he
    obtain ⟨x, hx, e1⟩ := List.mem_filterMap.1 he
    have := List.le_snd_of_mem_zipIdx hx
    have := List.snd_lt_add_of_mem_zipIdx hx
    split at e1
    · cases e1
      simp only at this ⊢
      omega
    · cases e1

/-- C58 is violated by the program as soon as a number has four digits: the dump of code from line 1000 is not JSON. -/
theorem C58_violation_numbers : ∃ p, TextResult Locale.utf8 {} b! ".file 1 \"a.c\"\n.loc 1 1000\n ret\n" p ∧
    readJson (p.outputDebugJson DumpOrder.id groupDec) = none ∧ (readJson (p.outputDebugJson DumpOrder.id)).isSome = true :=
  textRun_exists (P := fun p => readJson (p.outputDebugJson DumpOrder.id groupDec) = none ∧ (readJson (p.outputDebugJson DumpOrder.id)).isSome = true)
    (by decide +kernel)

end AsmParser
