/-
Property C36: the filter `comment_only` in text mode.
`OnlyComment` (`Verif/Spec/Directives.lean`) says that a line is nothing but a comment.
-/
import Verif.Proofs.TextComment
import Verif.Spec.TextSamples

namespace AsmParser

attribute [local irreducible] Re.search Re.fullMatch

/-- C36 (partial): with `comment_only` and without `whitespace`, no output line is nothing but a comment.  Missing: inputs with
CUDA headers, inline assembly in inputs with vertical tabs, form feeds or CRs, and `whitespace`, see `C36_violation`. -/
theorem C36_comments_partial (L : Locale) (f : Filter) (s : Str) (p : TParser) (h : TextResult L f s p)
    (hc : f.commentOnly = true) (hw : f.whitespace = false) (hn : NoCuda s) (l : TLine) (hl : l ∈ p.lines)
    (hi : l.isInlineAsm = false ∨ (11 ∉ s ∧ 12 ∉ s ∧ 13 ∉ s)) : ¬ OnlyComment l.text := by
  obtain ⟨l0, h1, h2, -⟩ := h.outcome.mem hl
  intro ho
  rw [core_text h2] at ho
  have e : l.isInlineAsm = l0.isInlineAsm := by have := congrArg TLine.isInlineAsm h2; exact this
  rw [e] at hi
  have := (comment_line hc hn h1 hi ho).1
  rw [hw] at this
  exact absurd this (by simp)

/-- C36 (partial): with `whitespace` too, the only comments are those that start with a slash. -/
theorem C36_whitespace_partial (L : Locale) (f : Filter) (s : Str) (p : TParser) (h : TextResult L f s p)
    (hc : f.commentOnly = true) (hn : NoCuda s) (l : TLine) (hl : l ∈ p.lines)
    (hi : l.isInlineAsm = false ∨ (11 ∉ s ∧ 12 ∉ s ∧ 13 ∉ s)) (ho : OnlyComment l.text) :
    ∃ bs r, Blanks bs ∧ l.text = bs ++ c! '/' :: r := by
  obtain ⟨l0, h1, h2, -⟩ := h.outcome.mem hl
  rw [core_text h2] at ho ⊢
  have e : l.isInlineAsm = l0.isInlineAsm := by have := congrArg TLine.isInlineAsm h2; exact this
  rw [e] at hi
  exact (comment_line hc hn h1 hi ho).2

/-- One comment of the sample goes, another one, behind an instruction, stays. -/
example : (textRun { commentOnly := true } b! "f: # start\n# comment\n ret\n /* a\n b */\n // c\n").map (·.outputText) =
    some b! "f: # start\n ret\n" := by decide +kernel

example : NoCuda b! "f: # start\n# comment\n ret\n" := by
  have h : ∀ l ∈ inputLines b! "f: # start\n# comment\n ret\n", c! '.' ∉ l := by decide
  intro l hl
  have hd := h l hl
  constructor <;>
  · rintro ⟨a, b, e⟩
    have : c! '.' ∈ ink l := by rw [e]; simp
    exact hd (List.mem_filter.1 this).1

/-- Squashing blanks makes a comment of a line that was none; removing the indentation of a line of inline assembly does;
and in CUDA code `@` does not start a comment. -/
theorem C36_violation :
    (∃ p, TextResult Locale.utf8 { commentOnly := true, whitespace := true } b! "/ / a\n" p ∧ p.outputText = b! "// a\n") ∧
    (∃ p, TextResult Locale.utf8 { commentOnly := true } b! " nop #APP\n#APP\n\r@a:\n" p ∧ p.outputText = b! " nop #APP\n@a:\n") ∧
    (∃ p, TextResult Locale.utf8 { commentOnly := true } b! ".func f(\n)\n# a\n@p bra b;\n" p ∧ p.outputText = b! ".func f(\n)\n@p bra b;\n") :=
  ⟨textRun_exists (by decide +kernel), textRun_exists (by decide +kernel), textRun_exists (by decide +kernel)⟩

end AsmParser
