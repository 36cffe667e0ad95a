/-
Properties C30-C35, C37, C38, C43, C46, C51 of text mode: which lines are output.
`TextResult L f s p` says that `p` is the parser after reading the byte string `s` (`Verif/Spec/TextMode.lean`).
-/
import Verif.Proofs.TextView
import Verif.Spec.TextSamples

namespace AsmParser

attribute [local irreducible] Re.search Re.fullMatch

/-! ### C30 -/

/-- C30 (partial): without filters the output is the input with tabs expanded and empty lines collapsed.  Missing: inputs
with lines that have nothing but blanks and inputs with inline assembly, see `C30_violation`. -/
theorem C30_identity_partial (L : Locale) (f : Filter) (s : Str) (p : TParser) (h : TextResult L f s p)
    (h1 : f.unusedLabels = false) (h2 : f.libraryFunctions = false) (h3 : f.directives = false) (h4 : f.commentOnly = false)
    (h5 : f.whitespace = false) (hb : ∀ l ∈ inputLines s, Blanks l → l = []) (ha : NoInlineAsm s) :
    p.outputText = unlines (collapse ((inputLines s).map expandTabs)) := by
  have e := map_core (h.outcome.all h1 (by simp [h3])) TLine.text fun _ => rfl
  rw [outputText_unlines, e, exactLines L f ⟨h4, h3, h2⟩ s (plainLine hb ha)]
  congr 2
  refine List.map_congr_left fun l _ => ?_
  unfold cleaned
  rw [if_neg (by simp [h5])]

/-- The same with the filter `whitespace`. -/
theorem C30_whitespace_partial (L : Locale) (f : Filter) (s : Str) (p : TParser) (h : TextResult L f s p)
    (h1 : f.unusedLabels = false) (h2 : f.libraryFunctions = false) (h3 : f.directives = false) (h4 : f.commentOnly = false)
    (h5 : f.whitespace = true) (hb : ∀ l ∈ inputLines s, Blanks l → l = []) (ha : NoInlineAsm s) :
    p.outputText = unlines (collapse ((inputLines s).map fun l => squashHorizontalWhitespaceWithQuotes (expandTabs l) true)) := by
  have e := map_core (h.outcome.all h1 (by simp [h3])) TLine.text fun _ => rfl
  rw [outputText_unlines, e, exactLines L f ⟨h4, h3, h2⟩ s (plainLine hb ha)]
  congr 2
  refine List.map_congr_left fun l _ => ?_
  unfold cleaned
  rw [if_pos h5]

/-- A small function satisfies the hypotheses, and parsing it succeeds. -/
example : (∀ l ∈ inputLines sampleAsm, Blanks l → l = []) ∧ NoInlineAsm sampleAsm ∧
    (textRun {} sampleAsm).isSome = true := by
  refine ⟨by decide +kernel, ?_, by decide +kernel⟩
  intro line hl bs r hb
  have h : ∀ line ∈ inputLines sampleAsm, startAppBlock line = false ∧ startAsmNesting line = false := by decide +kernel
  constructor
  · intro e
    have := (startAppBlock_iff line).2 ⟨bs, r, hb, e⟩
    rw [(h line hl).1] at this
    exact absurd this (by simp)
  · intro e
    have := (startAsmNesting_iff line).2 ⟨bs, r, hb, e⟩
    rw [(h line hl).2] at this
    exact absurd this (by simp)

/-- A line of blanks is put in front of the next line, and a label in inline assembly loses its indentation. -/
theorem C30_violation :
    (∃ p, TextResult Locale.utf8 {} b! "\t\nmain:\n ret\n" p ∧ p.outputText = b! "        main:\n ret\n") ∧
    (∃ p, TextResult Locale.utf8 {} b! "#APP\n  a:\n" p ∧ p.outputText = b! "#APP\na:\n") :=
  ⟨textRun_exists (by decide +kernel), textRun_exists (by decide +kernel)⟩

/-! ### C31 -/

/-- C31: the newline after the last line, which is not blank, makes no difference. -/
theorem C31_final_newline (L : Locale) (f : Filter) (s l : Str) (hl : 10 ∉ l) (hb : ¬ Blanks l) (o : Order) (n : Nat) (v : List Str) :
    (TParser.init f).fromStream L o n (s ++ l ++ [10]) v = (TParser.init f).fromStream L o n (s ++ l) v := by
  unfold TParser.fromStream
  rw [readStream_final L f s l hl fun h => hb (nonBlanks_blanks.1 h)]

/-- In terms of results. -/
theorem C31_result (L : Locale) (f : Filter) (s l : Str) (hl : 10 ∉ l) (hb : ¬ Blanks l) (p : TParser) :
    TextResult L f (s ++ l ++ [10]) p ↔ TextResult L f (s ++ l) p := by
  unfold TextResult
  simp only [C31_final_newline L f s l hl hb]

example : 10 ∉ b! "  ret" ∧ ¬ Blanks b! "  ret" ∧ (textRun {} b! "f:\n  ret").isSome = true := by decide +kernel

/-- It does for a blank one: one line more is counted. -/
theorem C31_blank : (textRun {} b! "f:\n ").map (fun p => (p.outputText, p.totalLines)) = some (b! "f:\n\n", 2) ∧
    (textRun {} b! "f:\n \n").map (fun p => (p.outputText, p.totalLines)) = some (b! "f:\n\n", 3) := by decide +kernel

/-! ### C34 -/

/-- C34: in order, the output lines that are not blank show different lines of the input.  How a line is shown is defined by
`Shown` in `Verif/Spec/TextMode.lean`. -/
theorem C34_shown (L : Locale) (f : Filter) (s : Str) (p : TParser) (h : TextResult L f s p) :
    ∃ ps : List ((Str × Bool) × Str), (p.lines.map fun l => (l.text, l.isInlineAsm)).filter (fun x => x.1 ≠ []) = ps.map (·.1) ∧
      (ps.map (·.2)).Sublist (inputLines s) ∧ ∀ x ∈ ps, Shown f x.1.1 x.1.2 x.2 := by
  obtain ⟨-, ps, h1, h2, h3, -⟩ := readLines L f s
  have h4 : ((p.lines.map look).filter (fun x => x.1 ≠ [])).Sublist (ps.map (·.1)) := by
    rw [← h1]
    exact (sublist_core h.outcome.core look fun _ => rfl).filter _
  rw [List.sublist_map_iff] at h4
  obtain ⟨qs, h5, h6⟩ := h4
  exact ⟨qs, h6, ((h5.map _).trans h2).trans List.filter_sublist, fun x hx => h3 x (h5.subset hx)⟩

/-- C34 (partial): the output lines that are not blank are a subsequence of the cleaned input lines.  Missing: inputs with
lines of blanks and inputs with inline assembly, for which `C34_shown` holds, see `C30_violation`. -/
theorem C34_subsequence_partial (L : Locale) (f : Filter) (s : Str) (p : TParser) (h : TextResult L f s p)
    (hb : ∀ l ∈ inputLines s, Blanks l → l = []) (ha : NoInlineAsm s) :
    ((p.lines.map TLine.text).filter (· ≠ [])).Sublist ((inputLines s).map (cleaned f)) :=
  ((sublist_core h.outcome.core TLine.text fun _ => rfl).filter _).trans (subLines L f s (plainLine hb ha))

/-- C34 is violated literally: the blanks of a line are put in front of the next one, and labels in inline assembly lose their
indentation, so that the output has lines that the input does not have. -/
theorem C34_violation :
    (∃ p, TextResult Locale.utf8 {} b! "\t\nmain:\n ret\n" p ∧
      ¬ ((p.lines.map TLine.text).filter (· ≠ [])).Sublist ((inputLines b! "\t\nmain:\n ret\n").map (cleaned {}))) ∧
    (∃ p, TextResult Locale.utf8 {} b! "#APP\n  a:\n" p ∧
      ¬ ((p.lines.map TLine.text).filter (· ≠ [])).Sublist ((inputLines b! "#APP\n  a:\n").map (cleaned {}))) :=
  ⟨textRun_exists (by decide +kernel), textRun_exists (by decide +kernel)⟩

/-- C34: ignoring white space, the output lines that are not blank are a subsequence of the input lines, for all inputs. -/
theorem C34_ink (L : Locale) (f : Filter) (s : Str) (p : TParser) (h : TextResult L f s p) :
    ((p.lines.map fun l => ink l.text).filter (· ≠ [])).Sublist ((inputLines s).map ink) := by
  obtain ⟨ps, h1, h2, h3⟩ := C34_shown L f s p h
  have e := shown_filter_ink h1 h3
  rw [e]
  refine List.filter_sublist.trans ?_
  have := h2.map ink
  rwa [List.map_map] at this

/-- No filter that drops lines: every line of the input that has anything but blanks is shown. -/
theorem C34_complete (L : Locale) (f : Filter) (s : Str) (p : TParser) (h : TextResult L f s p)
    (h1 : f.unusedLabels = false) (h2 : f.libraryFunctions = false) (h3 : f.directives = false) (h4 : f.commentOnly = false) :
    ∃ ps : List ((Str × Bool) × Str), (p.lines.map fun l => (l.text, l.isInlineAsm)).filter (fun x => x.1 ≠ []) = ps.map (·.1) ∧
      ps.map (·.2) = (inputLines s).filter (fun l => ¬ Blanks l) ∧ ∀ x ∈ ps, Shown f x.1.1 x.1.2 x.2 := by
  obtain ⟨-, ps, g1, g2, g3, g4⟩ := readLines L f s
  refine ⟨ps, ?_, ?_, g3⟩
  · rw [← g1]
    show List.filter _ (p.lines.map look) = _
    rw [map_core (h.outcome.all h1 (by simp [h3])) look fun _ => rfl]
  · rw [g4 ⟨h4, h3, h2⟩]
    congr 1
    funext l
    rw [Bool.eq_iff_iff]
    simp [nonBlanks_blanks]

/-- Six lines of the sample are left with four filters. -/
example : (textRun { directives := true, commentOnly := true, unusedLabels := true, compatmode := true } sampleAsm).map
    (fun p => p.lines.map TLine.text) = some [b! "square:", b! "        pushq   %rbp", b! "        movl    %edi, -4(%rbp) # comment",
      b! "        jmp     .L2", [], b! "        ret"] := by decide +kernel

/-! ### C32 -/

/-- The lines with CR LF after each. -/
def crlf (ls : List Str) : Str := ls.flatMap fun l => l ++ [13, 10]

/-- Violated: the CR stays in the text of the line, and a line of only CR is not blank. -/
theorem C32_violation : crlf [b! "main:", b! " ret"] = b! "main:\r\n ret\r\n" ∧
    unlines [b! "main:", b! " ret"] = b! "main:\n ret\n" ∧
    (∃ p, TextResult Locale.utf8 {} (crlf [b! "main:", [], b! " ret"]) p ∧ p.outputText = b! "main:\r\n\r\n ret\r\n") ∧
    (∃ p, TextResult Locale.utf8 {} (crlf [[], []]) p ∧ p.outputText = b! "\r\n\r\n") ∧
    (∃ p, TextResult Locale.utf8 {} (unlines [[], []]) p ∧ p.outputText = []) :=
  ⟨by decide, by decide, textRun_exists (by decide +kernel), textRun_exists (by decide +kernel), textRun_exists (by decide +kernel)⟩

/-- C32 (partial): without filters that drop lines, ignoring white space (CR is white space) and blank lines, CR LF and LF give
the same lines.  Missing: white space, and the filters that drop lines. -/
theorem C32_crlf_partial (L : Locale) (f : Filter) (ls : List Str) (hls : ∀ l ∈ ls, 10 ∉ l) (p p' : TParser)
    (h : TextResult L f (unlines ls) p) (h' : TextResult L f (crlf ls) p')
    (h1 : f.unusedLabels = false) (h2 : f.libraryFunctions = false) (h3 : f.directives = false) (h4 : f.commentOnly = false) :
    (p.lines.map fun l => ink l.text).filter (· ≠ []) = (p'.lines.map fun l => ink l.text).filter (· ≠ []) := by
  have key : ∀ (s : Str) (p : TParser), TextResult L f s p →
      (p.lines.map fun l => ink l.text).filter (· ≠ []) = ((inputLines s).map ink).filter (· ≠ []) := by
    intro s p h
    obtain ⟨ps, g1, g2, g3⟩ := C34_complete L f s p h h1 h2 h3 h4
    have e1 := shown_filter_ink g1 g3
    have e2 : (ps.map fun x => ink x.2) = (ps.map (·.2)).map ink := by rw [List.map_map]; rfl
    rw [e1, e2, g2]
    generalize inputLines s = ls
    induction ls with
    | nil => rfl
    | cons l ls ih =>
      rw [List.map_cons, List.filter_cons, List.filter_cons]
      by_cases hl : Blanks l
      · rw [if_neg (by simp [hl]), ih, ink_blanks hl, if_neg (by simp)]
      · rw [if_pos (by simp [hl]), List.map_cons, List.filter_cons, ih]
  rw [key _ _ h, key _ _ h', inputLines_unlines ls hls]
  have e : crlf ls = unlines (ls.map fun l => l ++ [13]) := by
    unfold crlf unlines
    rw [List.flatMap_map]
    simp
  rw [e, inputLines_unlines _ (by
    intro l hl
    obtain ⟨x, hx, rfl⟩ := List.mem_map.1 hl
    simpa using hls x hx), List.map_map]
  congr 1
  refine List.map_congr_left fun l _ => ?_
  show ink l = ink (l ++ [13])
  rw [ink_append]
  simp [ink]

example : (textRun {} (crlf [b! "f:", [], b! " ret"])).isSome = true ∧ (textRun {} (unlines [b! "f:", [], b! " ret"])).isSome = true := by
  decide +kernel

/-! ### C33 -/

/-- C33: an entry `(name, n)` of labelDefinitions says that output line `n` defines or assigns the label `name`, which its
text contains; the numbers are strictly increasing; and every line that defines or assigns a label has an entry (except a
CUDA header that is at the same time a directive with source information). -/
theorem C33_label_definitions (L : Locale) (f : Filter) (s : Str) (p : TParser) (h : TextResult L f s p) (time : Int) :
    (∀ name n, (name, n) ∈ (p.jsonDoc time).labels →
      1 ≤ n ∧ ∃ l, p.lines[n - 1]? = some l ∧ DefinesOrAssigns l.text name ∧ Contains l.text name) ∧
    (((p.jsonDoc time).labels.map (·.2)).Pairwise (· < ·)) ∧
    ∀ n l name, p.lines[n]? = some l → DefinesOrAssigns l.text name → ¬ (SourceDirective l.text ∧ CudaHeader l.text name) →
      ∃ name', (name', n + 1) ∈ (p.jsonDoc time).labels := by
  obtain ⟨h1, h2⟩ := redetermineLabels_spec 1 p.lines
  refine ⟨fun name n hn => ?_, h2, fun n l name hl hd hs => ?_⟩
  · obtain ⟨h3, l, h4, h5, h6⟩ := (h1 name n).1 hn
    have hd := (output_label h (List.mem_of_getElem? h4)).1 h5
    rw [h6] at hd
    exact ⟨h3, l, h4, hd, (definesOrAssigns_contains hd).1⟩
  · cases hlab : l.isLabel with
    | true => exact ⟨l.label, (h1 _ _).2 ⟨by omega, l, by simpa using hl, hlab, rfl⟩⟩
    | false =>
      rcases (output_label h (List.mem_of_getElem? hl)).2 hlab with h3 | h3
      · exact absurd ⟨h3, h3.not_label hd⟩ hs
      · exact absurd hd (h3 name)

/-- C33, in terms of the label lines of the parser: exactly these, in order. -/
theorem C33_exactly_label_lines (p : TParser) (time : Int) (name : Str) (n : Nat) : (name, n) ∈ (p.jsonDoc time).labels ↔
    1 ≤ n ∧ ∃ l, p.lines[n - 1]? = some l ∧ l.isLabel = true ∧ l.label = name :=
  (redetermineLabels_spec 1 p.lines).1 name n

example : (textRun {} sampleAsm).map (fun p => (p.jsonDoc 0).labels) =
    some [(b! "square", 5), (b! ".LFB0", 6), (b! ".L2", 15), (b! ".LC0", 18)] := by decide +kernel

/-! ### C35 -/

/-- C35 (partial): with `directives`, the only directives in the output define or assign a label, are data definitions, or
contain `.inst`.  Missing: inputs with CUDA headers, and directives other than `.inst` that contain `.inst` somewhere, see
`C35_violation`. -/
theorem C35_directives_partial (L : Locale) (f : Filter) (s : Str) (p : TParser) (h : TextResult L f s p)
    (hd : f.directives = true) (hc : NoCuda s) (l : TLine) (hl : l ∈ p.lines) (hdir : Directive l.text) :
    DefinesOrAssigns l.text l.label ∨ StartsWithOneOf dataDirectives l.text ∨ Contains l.text b! ".inst" := by
  obtain ⟨l0, -, h2, h3⟩ := output_line h hl
  rw [core_text h2] at hdir ⊢
  rw [core_label h2]
  rcases h3 with h3 | h3
  · have e1 : l0.text = [] := by have := congrArg TLine.text h3; exact this
    rw [e1] at hdir
    obtain ⟨bs, r, -, e⟩ := hdir
    have := congrArg List.length e
    simp at this
  · rcases h3.directive hd with h4 | h4 | h4 | h4 | h4
    · rcases h3.label with ⟨-, c, a2⟩ | ⟨a1, -⟩
      · exact .inl (getLabelFromLine_defines a2)
      · exact absurd (a1.symm.trans h4) (by simp)
    · exact .inr (.inl ((C29_data _).1 (h3.data h4)))
    · exact .inr (.inr ((isInstOpcode_iff _).1 h4))
    · have := (C29_directive _).2 hdir
      rw [h4] at this
      exact absurd this (by simp)
    · exact absurd h4 (noCuda hc)

/-- A `.file` directive that mentions `.inst` stays; so does any directive in a CUDA function header. -/
theorem C35_violation :
    (∃ p, TextResult Locale.utf8 { directives := true } b! " .file 1 \"x.inst.c\"\n .file 2 \"y.c\"\n" p ∧
      p.outputText = b! " .file 1 \"x.inst.c\"\n") ∧
    (∃ p, TextResult Locale.utf8 { directives := true } b! ".entry f(\n .param .u64 x\n)\n .param .u64 x\n" p ∧
      p.outputText = b! ".entry f(\n .param .u64 x\n)\n") :=
  ⟨textRun_exists (by decide +kernel), textRun_exists (by decide +kernel)⟩

/-- Ten directives of the sample are dropped, two data definitions stay. -/
example : (textRun { directives := true } sampleAsm).map (fun p => p.lines.map TLine.text) =
    some [b! "square:", b! ".LFB0:", b! "        pushq   %rbp", b! "        movl    %edi, -4(%rbp) # comment",
      b! "# only a comment", b! "        jmp     .L2", [], b! ".L2:", b! "        ret", b! ".LC0:", b! "        .string \"a  b\"",
      b! "        .long   square"] := by decide +kernel

/-! ### C37 -/

/-- C37: every label reference of an output line names a label that a line of the input defines or assigns (as far as it is
shown that way). -/
theorem C37_references_defined (L : Locale) (f : Filter) (s : Str) (p : TParser) (h : TextResult L f s p) (l : TLine) (hl : l ∈ p.lines)
    (r : AsmLabel) (hr : r ∈ l.labels) :
    ∃ raw ∈ inputLines s, ∃ t inl, Shown f t inl raw ∧ DefinesOrAssigns t r.name := by
  obtain ⟨l0, h1, h2, h3, -⟩ := h.outcome.mem hl
  rw [h3, List.mem_filter] at hr
  have hdef : p.labelsDefined = ((TParser.init f).readStream L s).labelsDefined := by
    obtain ⟨us, ls, lines, fl, ub, rfl, -⟩ := h.outcome.frame
    rfl
  obtain ⟨n, hn⟩ := Option.isSome_iff_exists.1 hr.2
  rw [hdef] at hn
  obtain ⟨e, -, ht⟩ := textInv L f s
  obtain ⟨-, d, h4, h5, h6⟩ := ht.table.sound _ (lookup_some_mem hn)
  have hd := List.mem_of_getElem? h4
  rcases read_line L f s hd with h7 | h7
  · have e2 : d.isLabel = false := by have := congrArg TLine.isLabel h7; exact this
    rw [e2] at h5
    exact absurd h5 (by simp)
  · obtain ⟨n, ws, raw, g1, g2, -, g3, -, -⟩ := h7.raw
    obtain ⟨sp, t', g4, g5, g6, g7, -⟩ := lineText_shown f n (ws ++ raw)
    refine ⟨raw, g2, d.text, decide (0 < n), ⟨ws, sp, t', g1, g4, g5, ?_, by rw [g3, g7]⟩, ?_⟩
    · simpa using g6
    · rcases h7.label with ⟨-, c, a2⟩ | ⟨a1, -⟩
      · have := getLabelFromLine_defines a2
        rwa [show d.label = r.name from h6] at this
      · exact absurd (a1.symm.trans h5) (by simp)

/-- There are references in the sample, and `rbp` is not one. -/
example : (textRun {} sampleAsm).map (fun p => p.lines.flatMap fun l => l.labels.map (·.name)) = some [b! ".L2", b! "square"] := by
  decide +kernel

/-! ### C38 -/

/-- C38 is false for every input: with `library_functions` the output is empty. -/
theorem C38_violation (L : Locale) (f : Filter) (s : Str) (p : TParser) (h : TextResult L f s p) (hf : f.libraryFunctions = true) :
    p.lines = [] ∧ p.outputText = [] := by
  have : p.lines = [] := by
    obtain ⟨e, -, ht⟩ := textInv L f s
    have := h.outcome.core
    rw [ht.lib hf] at this
    simpa using this
  exact ⟨this, by unfold TParser.outputText; rw [this]; rfl⟩

example : (textRun { libraryFunctions := true } sampleAsm).isSome = true := by decide +kernel

/-! ### C43 -/

/-- C43: after reading, every recorded position of a label is that of a line that defines it, every label line is recorded, and
no label twice; the lookups that follow do not go out of bounds: undefined behaviour can only occur while reading. -/
theorem C43_label_positions (L : Locale) (f : Filter) (s : Str) :
    (∀ name n, (name, n) ∈ ((TParser.init f).readStream L s).labelsDefined →
      1 ≤ n ∧ ∃ l, ((TParser.init f).readStream L s).lines[n - 1]? = some l ∧ l.isLabel = true ∧ l.label = name) ∧
    (∀ l ∈ ((TParser.init f).readStream L s).lines, l.isLabel = true →
      ∃ n, (l.label, n) ∈ ((TParser.init f).readStream L s).labelsDefined) ∧
    (((TParser.init f).readStream L s).labelsDefined.map (·.1)).Nodup ∧
    ∀ o n v p v', (TParser.init f).fromStream L o n s v = some (p, v') → p.ub = ((TParser.init f).readStream L s).ub := by
  obtain ⟨e, -, ht⟩ := textInv L f s
  refine ⟨fun name n h => ht.table.sound _ h, fun l hl hlab => ?_, ht.table.nodup, fun o n v p v' h => fromStream_ub h⟩
  obtain ⟨n, hn⟩ := Option.isSome_iff_exists.1 (ht.table.complete l hl hlab)
  exact ⟨n, lookup_some_mem hn⟩

example : ((TParser.init {}).readStream Locale.utf8 sampleAsm).labelsDefined =
    [(b! "square", 5), (b! ".LFB0", 6), (b! ".L2", 15), (b! ".LC0", 18)] := by decide +kernel

/-- Reusing the parser goes out of bounds: the positions of the first input do not exist any more. -/
theorem C43_reuse_violation : ∃ p v p' v', (TParser.init { unusedLabels := true }).fromStream Locale.utf8 Order.id 100
      b! "a:\n ret\nb:\n ret\n" [] = some (p, v) ∧ p.ub = false ∧
    p.fromStream Locale.utf8 Order.id 100 b! " ret\n" v = some (p', v') ∧ p'.ub = true := by
  have h : (match (TParser.init { unusedLabels := true }).fromStream Locale.utf8 Order.id 100 b! "a:\n ret\nb:\n ret\n" [] with
    | none => false
    | some (p, v) => !p.ub && match p.fromStream Locale.utf8 Order.id 100 b! " ret\n" v with
      | none => false
      | some (p', _) => p'.ub) = true := by decide +kernel
  split at h
  · exact absurd h (by simp)
  · rename_i p v e
    rw [Bool.and_eq_true] at h
    obtain ⟨h1, h2⟩ := h
    split at h2
    · exact absurd h2 (by simp)
    · rename_i p' v' e'
      exact ⟨p, v, p', v', e, by simpa using h1, e', h2⟩

/-! ### C46 -/

/-- C46: without `unused_labels`, of the lines that have been read (`sub` are those that are kept) only data lines outside
procedures are removed, and those only with `directives` in compatibility mode.  Text and all other fields that are known
before the usage analysis stay the same (`TLine.core`). -/
theorem C46_only_data_removed (L : Locale) (f : Filter) (s : Str) (p : TParser) (h : TextResult L f s p) (hu : f.unusedLabels = false) :
    ∃ sub, List.Sublist sub ((TParser.init f).readStream L s).lines ∧
      p.lines.map TLine.core = sub.map TLine.core ∧
      sub.filter (fun l => !(l.isData && !l.source.insideProc)) =
        ((TParser.init f).readStream L s).lines.filter (fun l => !(l.isData && !l.source.insideProc)) ∧
      ((f.compatmode = false ∨ f.directives = false) → sub = ((TParser.init f).readStream L s).lines) := by
  obtain ⟨sub, h1, h2, h3⟩ := h.outcome.sub
  obtain ⟨h4, h5⟩ := h3 hu
  refine ⟨sub, h1, h2, h4, fun h6 => h5 ?_⟩
  rcases h6 with h6 | h6 <;> simp [h6]

/-- Something is removed from the sample. -/
example : (textRun { directives := true, compatmode := true } sampleAsm).map (fun p => p.lines.length) = some 10 ∧
    (textRun { directives := true, compatmode := true } b! "f:\n ret\n.LC0:\n .long 3\n").map (fun p => p.outputText) =
      some b! "f:\n ret\n.LC0:\n" := by decide +kernel

/-! ### C51 -/

/-- C51: the lines that have been read do not start with a blank line, and no two blank lines are adjacent. -/
theorem C51_no_double_blank (L : Locale) (f : Filter) (s : Str) :
    (∀ l rest, ((TParser.init f).readStream L s).lines = l :: rest → l.text ≠ []) ∧
    ∀ a x y rest, ((TParser.init f).readStream L s).lines = a ++ x :: y :: rest → x.text ≠ [] ∨ y.text ≠ [] := by
  obtain ⟨e, -, ht⟩ := textInv L f s
  obtain ⟨h1, h2⟩ := noDoubleBlank_spec ht.blanks
  exact ⟨fun l rest e h => absurd (h1 l rest e h) (by simp), h2⟩

/-- C51 for the output, if nothing is removed after reading. -/
theorem C51_output (L : Locale) (f : Filter) (s : Str) (p : TParser) (h : TextResult L f s p) (hu : f.unusedLabels = false)
    (hd : f.compatmode = false ∨ f.directives = false) :
    (∀ l rest, p.lines = l :: rest → l.text ≠ []) ∧ ∀ a x y rest, p.lines = a ++ x :: y :: rest → x.text ≠ [] ∨ y.text ≠ [] := by
  obtain ⟨e, -, ht⟩ := textInv L f s
  have he := map_core (h.outcome.all hu (by rcases hd with h | h <;> simp [h])) TLine.text fun _ => rfl
  obtain ⟨h1, h2⟩ := noDoubleBlank_spec (noDoubleBlank_text he.symm ht.blanks)
  exact ⟨fun l rest e h => absurd (h1 l rest e h) (by simp), h2⟩

/-- The final pass may make blank lines adjacent. -/
theorem C51_after_removal : ∃ p, TextResult Locale.utf8 { unusedLabels := true } b! " nop\n\n.L1:\n\n ret\n" p ∧
    p.outputText = b! " nop\n\n\n ret\n" :=
  textRun_exists (by decide +kernel)

end AsmParser
