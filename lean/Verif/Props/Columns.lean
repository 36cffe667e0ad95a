/-
C28 and C62: the label references of the lines of text mode with their columns.
-/
import Verif.Proofs.Columns
import Verif.Props.Lines
import Verif.Spec.TextSamples

namespace AsmParser

/-! ### C28 -/

/-- C28: the references of a line, of any length, with their columns.  These are too large by the length of the comment and of
the blanks before it. -/
theorem C28_exact (L : Locale) (hL : L.Ascii) (line : Str) : getUsedLabelsInLine L line = referencesIn line := usedLabels_exact hL line

/-- What the specification says of some lines: a comment moves the columns, also in front of a word that is not an operand. -/
example : referencesIn b! "  jmp foo" = [{ name := b! "foo", startCol := 7, endCol := 10 }] ∧ overshoot b! "  jmp foo" = 0 ∧
    referencesIn b! "  jmp foo # x" = [{ name := b! "foo", startCol := 11, endCol := 14 }] ∧ overshoot b! "  jmp foo # x" = 4 ∧
    referencesIn b! " mov $a, %b" = [⟨b! "a", 7, 8⟩, ⟨b! "$a", 6, 8⟩, ⟨b! "b", 11, 12⟩, ⟨b! "%b", 10, 12⟩] := by decide
example : referencesIn b! "\tret" = [⟨b! "ret", 2, 5⟩] ∧ referencesIn b! " .ascii \"a b\"" = [] := by decide

/-! ### C62 -/

/-- C62 with columns: the references of every line of the output, exactly.  An instruction or data definition lists the words of its
operands that name a label of the input, with the columns in which they are (see C28); every other line lists nothing. -/
theorem C62_columns (L : Locale) (hL : L.Ascii) (f : Filter) (s : Str) (p : TParser) (h : TextResult L f s p) : ∃ defined : Str → Bool,
    (∀ a, defined a = true ↔ ∃ t ∈ seen f s, t.Defines a) ∧
    ∀ l ∈ p.lines, l.labels = if l.isLabel = false ∧ (l.hasOpcode = true ∨ l.isData = true) then
      (referencesIn l.text).filter (fun r => defined r.name) else [] := by
  obtain ⟨defined, zs, h1, h2, -, h4, -⟩ := C67_lines L f s p h
  refine ⟨defined, h1, fun l hl => ?_⟩
  have hdef : p.labelsDefined = ((TParser.init f).readStream L s).labelsDefined := by
    obtain ⟨us, ls, lines, fl, ub, rfl, -⟩ := h.outcome.frame
    rfl
  have hD : ∀ a, (p.labelsDefined.lookup a).isSome = defined a := by
    intro a
    rw [Bool.eq_iff_iff, h1, ← (readGraph L f s).defs, hdef]
    show _ ↔ a ∈ ((TParser.init f).readStream L s).labelsDefined.map (·.1)
    rw [List.mem_map]
    constructor
    · intro h
      obtain ⟨n, hn⟩ := Option.isSome_iff_exists.1 h
      exact ⟨_, mem_of_lookup hn, rfl⟩
    · rintro ⟨⟨x, n⟩, h, rfl⟩
      exact lookup_isSome h
  obtain ⟨l0, a1, a2, a3, -⟩ := h.outcome.mem hl
  have et : l.text = l0.text := by have := congrArg TLine.text a2; exact this
  have hor : l.labels = [] ∨ l.labels = (referencesIn l.text).filter (fun r => defined r.name) := by
    rcases (line_refs a1).1 with e | ⟨-, e⟩
    · left; rw [a3, e]; rfl
    · right
      rw [a3, e, et, usedLabels_exact hL]
      congr 1
      funext r
      exact hD r.name
  by_cases ht : l.text = []
  · have e : referencesIn l.text = [] := by rw [ht]; decide
    rw [e] at hor ⊢
    simpa using hor
  · have hz : l ∈ zs.map (·.1) := by rw [h2, List.mem_filter]; exact ⟨hl, by simpa using ht⟩
    obtain ⟨z, hz', rfl⟩ := List.mem_map.1 hz
    obtain ⟨t, -, -, hd⟩ := h4 z hz'
    have hr := hd.refs
    split at hr
    · rename_i hc
      rw [if_pos hc]
      rcases hor with e | e
      · rw [e]
        have hn : (mentioned t.text).filter defined = [] := by rw [← hr, e]; rfl
        rw [← hd.text, ← usedLabels_names L, usedLabels_exact hL, List.filter_map, List.map_eq_nil_iff] at hn
        exact hn.symm
      · exact e
    · rename_i hc
      rw [if_neg hc]
      exact List.map_eq_nil_iff.1 hr

/-- A word that is mentioned twice, and a label that is not in the input. -/
example : (textRun {} b! "f:\n call f, %f, g\n").map (fun p => p.lines.map fun l => l.labels) =
      some [[], [⟨b! "f", 7, 8⟩, ⟨b! "f", 11, 12⟩]] := by decide +kernel

end AsmParser
