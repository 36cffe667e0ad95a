/-
C62: the label references of the lines of text mode.
-/
import Verif.Proofs.ReferenceLines
import Verif.Spec.TextSamples

namespace AsmParser

/-! ### C62 -/

/-- C62, for a single line: the names found are the words of the operands, from left to right. -/
theorem C62_line (L : Locale) (line : Str) : (getUsedLabelsInLine L line).map (·.name) = mentioned line := usedLabels_names L line

example : mentioned b! "        leaq    .LC0(%rip), %rdi # load _x1 here" = [b! ".LC0", b! "rip", b! "%rip", b! "rdi", b! "%rdi"] := by decide
example : mentioned b! " call $f + 4;" = [b! "f", b! "$f"] ∧ mentioned b! "\tret" = [b! "ret"] ∧ mentioned b! " .ascii \"a b\"" = [] ∧
    mentioned b! " .long .L1-.L2" = [b! ".L1", b! ".L2"] ∧ mentioned b! "mov r1, a;b" = [b! "r1", b! "a", b! "b"] := by decide

/-- C62: there is a set `D` of labels, each defined by a line of the input and with all labels of the output in it, so that the
references of every line are the words of its operands that are in `D`, in this order: always for data definitions, and outside
of CUDA code for instructions (lines that begin with a letter and do not assign).  Label lines list nothing, and neither do
other lines without `.inst`. -/
theorem C62_references_partial (L : Locale) (f : Filter) (s : Str) (p : TParser) (h : TextResult L f s p) : ∃ D : List Str,
    (∀ d ∈ D, ∃ raw ∈ inputLines s, ∃ t inl, Shown f t inl raw ∧ DefinesOrAssigns t d) ∧
    (∀ l ∈ p.lines, l.isLabel = true → l.label ∈ D) ∧
    (f.unusedLabels = false → (f.compatmode = false ∨ f.directives = false) → ∀ d ∈ D, ∃ l ∈ p.lines, l.isLabel = true ∧ l.label = d) ∧
    ∀ l ∈ p.lines, (l.isLabel = true → l.labels = []) ∧
      (l.labels = [] ∨ l.labels.map (·.name) = (mentioned l.text).filter (· ∈ D)) ∧
      (l.isLabel = false → StartsWithOneOf dataDirectives l.text → l.labels.map (·.name) = (mentioned l.text).filter (· ∈ D)) ∧
      (NoCuda s → l.isLabel = false → BeginsWithLetter l.text → ¬ Assigned l.text →
        l.labels.map (·.name) = (mentioned l.text).filter (· ∈ D)) ∧
      (NoCuda s → ¬ BeginsWithLetter l.text → ¬ StartsWithOneOf dataDirectives l.text → ¬ Contains l.text b! ".inst" →
        l.labels = []) := by
  have hdef : p.labelsDefined = ((TParser.init f).readStream L s).labelsDefined := by
    obtain ⟨us, ls, lines, fl, ub, rfl, -⟩ := h.outcome.frame
    rfl
  obtain ⟨e, -, ht⟩ := textInv L f s
  have key : ∀ n, n ∈ p.labelsDefined.map (·.1) ↔ (p.labelsDefined.lookup n).isSome = true := by
    intro n
    generalize p.labelsDefined = m
    induction m with
    | nil => simp
    | cons a m ih =>
      obtain ⟨k, v⟩ := a
      rw [List.lookup_cons]
      by_cases hk : n = k
      · subst hk; simp
      · have : (n == k) = false := by simp [hk]
        rw [this, List.map_cons, List.mem_cons]
        simp only [hk, false_or]
        exact ih
  refine ⟨p.labelsDefined.map (·.1), ?_, ?_, ?_, ?_⟩
  · intro d hd
    obtain ⟨e, he, rfl⟩ := List.mem_map.1 hd
    rw [hdef] at he
    obtain ⟨-, d, h4, h5, h6⟩ := ht.table.sound _ he
    have hd := List.mem_of_getElem? h4
    rcases read_line L f s hd with h7 | h7
    · have e2 : d.isLabel = false := by have := congrArg TLine.isLabel h7; exact this
      rw [e2] at h5
      exact absurd h5 (by simp)
    · obtain ⟨n, ws, raw, g1, g2, -, g3, -, -⟩ := h7.raw
      obtain ⟨sp, t', g4, g5, g6, g7, -⟩ := lineText_shown f n (ws ++ raw)
      refine ⟨raw, g2, d.text, decide (0 < n), ⟨ws, sp, t', g1, g4, g5, ?_, by rw [g3, g7]⟩, ?_⟩
      · simpa using g6
      · rcases h7.label with ⟨-, c, a2⟩ | ⟨a1, -⟩
        · have := getLabelFromLine_defines a2
          rwa [show d.label = e.1 from h6] at this
        · exact absurd (a1.symm.trans h5) (by simp)
  · intro l hl hlab
    obtain ⟨l0, h1, h2, -⟩ := h.outcome.mem hl
    rw [key, hdef, show l.label = l0.label by have := congrArg TLine.label h2; exact this]
    exact ht.table.complete l0 h1 (by have := congrArg TLine.isLabel h2; exact Eq.trans this.symm hlab)
  · intro hu hc d hd
    obtain ⟨sub, -, h2, h3⟩ := h.outcome.sub
    have hsub := (h3 hu).2 (by rcases hc with hc | hc <;> simp [hc])
    obtain ⟨e, he, rfl⟩ := List.mem_map.1 hd
    rw [hdef] at he
    obtain ⟨-, d, h4, h5, h6⟩ := ht.table.sound _ he
    have hd := List.mem_of_getElem? h4
    rw [← hsub] at hd
    have := List.mem_map_of_mem (f := TLine.core) hd
    rw [← h2, List.mem_map] at this
    obtain ⟨l, hl, e⟩ := this
    have e1 := congrArg TLine.isLabel e
    have e2 := congrArg TLine.label e
    exact ⟨l, hl, Eq.trans e1 h5, Eq.trans e2 h6⟩
  · intro l hl
    obtain ⟨l0, h1, h2, h3, -⟩ := h.outcome.mem hl
    have et : l.text = l0.text := by have := congrArg TLine.text h2; exact this
    have el : l.isLabel = l0.isLabel := by have := congrArg TLine.isLabel h2; exact this
    have nil : l0.labels = [] → l.labels = [] := by intro e; rw [h3, e]; rfl
    have full : l0.labels = getUsedLabelsInLine L l0.text →
        l.labels.map (·.name) = (mentioned l.text).filter (· ∈ p.labelsDefined.map (·.1)) := by
      intro e
      rw [h3, e, et, ← usedLabels_names L, List.filter_map]
      congr 2
      funext r
      rw [Bool.eq_iff_iff]
      simp only [Function.comp, decide_eq_true_eq]
      exact (key r.name).symm
    obtain ⟨r1, r2, r3, r4, r5⟩ := line_refs h1
    rw [et, el]
    rw [et] at full
    exact ⟨fun h' => nil (r2 h'), r1.imp nil fun h' => full h'.2, fun a b => full (r3 a b), fun n a b c => full (r4 n a b c),
      fun n a b c => nil (r5 n a b c)⟩

/-- The references of the sample, and of a line where a word is mentioned twice. -/
example : (textRun {} sampleAsm).map (fun p => p.lines.flatMap fun l => l.labels.map (·.name)) = some [b! ".L2", b! "square"] ∧
    (textRun {} b! "f:\n call f, %f\n").map (fun p => p.lines.map fun l => l.labels.map (·.name)) =
      some [[], [b! "f", b! "f"]] := by decide +kernel

/-- C62 does not hold for all label names: `$` and `@` may occur in them, but are not part of the words of an operand. -/
theorem C62_violation_names : (textRun {} b! "f$1:\ng@2:\n jmp f$1\n call g@2\n").map (fun p => p.lines.map fun l => l.labels.map (·.name)) =
      some [[], [], [], []] := by decide +kernel

/-- C62 does not hold for lines with a double quote, nor for instructions of CUDA code. -/
theorem C62_violation_lines : (textRun {} b! "f:\n .long f, \"f\"\n").map (fun p => p.lines.map fun l => l.labels.map (·.name)) =
      some [[], []] ∧
    (textRun {} b! ".entry k(\n{\nL:\n bra L;\n}\n").map (fun p => p.lines.map fun l => (l.text, l.labels.map (·.name))) =
      some [(b! ".entry k(", []), (b! "{", []), (b! "L:", []), (b! " bra L;", []), (b! "}", [])] := by decide +kernel

end AsmParser
