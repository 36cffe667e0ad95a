/-
C70: in text mode a filter only removes lines.
-/
import Verif.Proofs.MoreFilters
import Verif.Proofs.Recognize
import Verif.Props.TextMode
import Verif.Proofs.Compat

namespace AsmParser

attribute [local irreducible] Re.search Re.fullMatch

/-- C70 (partial): if `g` has the same `whitespace` and at least the filters `comment_only`, `directives` and `library_functions`
that `f` has, then the lines shown with `g` are among those shown with `f`, in the same order and with the same text; `g` may also
have `unused_labels` and the compatibility mode.  Missing: `f` with `unused_labels` (see `C70_violation_unused`), or with the
compatibility mode and `directives` if there is data; turning on `comment_only` for inputs with inline assembly (see `C70_violation_inline`) or CUDA
code; and inputs in which `.cfi_startproc` is not alone in its line (see `C70_violation_proc`). -/
theorem C70_more_filters_partial (L : Locale) (f g : Filter) (s : Str) (p q : TParser) (hp : TextResult L f s p) (hq : TextResult L g s q)
    (hu : f.unusedLabels = false) (hcd : NoLooseData f s) (hw : f.whitespace = g.whitespace)
    (hd : f.directives = true → g.directives = true) (hc : f.commentOnly = true → g.commentOnly = true)
    (hl : f.libraryFunctions = true → g.libraryFunctions = true)
    (hin : f.commentOnly = g.commentOnly ∨ NoInlineAsm s ∧ NoCuda s)
    (hproc : ∀ l ∈ inputLines s, Contains (ink l) b! ".cfi_startproc" → nonBlanks l = b! ".cfi_startproc") :
    (q.lines.map (·.text)).Sublist (p.lines.map (·.text)) := by
  cases hgl : g.libraryFunctions with
  | true => rw [(C38_violation L g s q hq hgl).1]; exact List.nil_sublist _
  | false =>
    have hfl : f.libraryFunctions = false := by
      cases hx : f.libraryFunctions with
      | false => rfl
      | true => exact absurd ((hl hx).symm.trans hgl) (by simp)
    rw [show p.lines.map (·.text) = _ from hcd.texts hp hu]
    obtain ⟨sub, h1, h2, -⟩ := hq.outcome.sub
    rw [map_core h2 TLine.text fun _ => rfl]
    refine (h1.map TLine.text).trans ?_
    rw [(readTags L g s).2.1]
    exact collapse_mono (shown_mono hw hfl hgl hd hc hin (procAlone hproc))

/-- A function with comments, directives, data and `.cfi_startproc`. -/
def filterSample : Str :=
  b! "\t.text\n" ++ b! "f:\n" ++ b! "\t.cfi_startproc\n" ++ b! "# only a comment\n" ++ b! " \t\n" ++ b! "\tret # done\n" ++
  b! "/* block\n" ++ b! "  \n" ++ b! "*/\n" ++ b! "\n\n" ++ b! ".L1:\n" ++ b! "\t.long\tf\n" ++ b! "\t.loc 1 2\n"

example : (textRun {} filterSample).map (·.lines.map (·.text)) = some [b! "        .text", b! "f:", b! "        .cfi_startproc",
      b! "# only a comment", [], b! "               ret # done", b! "/* block", [], b! "  */", [], b! ".L1:", b! "        .long   f",
      b! "        .loc 1 2"] ∧
    (textRun { commentOnly := true, directives := true } filterSample).map (·.lines.map (·.text)) = some [b! "f:", [],
      b! "               ret # done", [], b! ".L1:", b! "        .long   f"] := by decide +kernel

example : NoInlineAsm filterSample ∧ NoCuda filterSample ∧
    ∀ l ∈ inputLines filterSample, Contains (ink l) b! ".cfi_startproc" → nonBlanks l = b! ".cfi_startproc" := by
  refine ⟨?_, ?_, ?_⟩
  · intro line hl bs r hb
    have h : ∀ line ∈ inputLines filterSample, startAppBlock line = false ∧ startAsmNesting line = false := by decide +kernel
    constructor
    · intro e
      have := (startAppBlock_iff line).2 ⟨bs, r, hb, e⟩
      rw [(h line hl).1] at this
      exact absurd this (by simp)
    · intro e
      have := (startAsmNesting_iff line).2 ⟨bs, r, hb, e⟩
      rw [(h line hl).2] at this
      exact absurd this (by simp)
  · have h : ∀ l ∈ inputLines filterSample, occurs b! ".entry" (ink l) = false ∧ occurs b! ".func" (ink l) = false := by
      decide +kernel
    intro l hl
    have := h l hl
    simp only [← occurs_iff, this]
    simp
  · simp only [← occurs_iff]
    decide +kernel

/-- C70 fails for `comment_only` if a block comment has a marker of inline assembly: a line that is shown with and without the filter
has a different text. -/
theorem C70_violation_inline : (∃ p, TextResult Locale.utf8 {} b! "/*\n#APP\n*/\n  x: nop\n" p ∧ p.outputText = b! "/*\n#APP\n*/\nx: nop\n") ∧
    ∃ p, TextResult Locale.utf8 { commentOnly := true } b! "/*\n#APP\n*/\n  x: nop\n" p ∧ p.outputText = b! "  x: nop\n" :=
  ⟨textRun_exists (by decide +kernel), textRun_exists (by decide +kernel)⟩

/-- C70 fails together with `unused_labels`: turning on `comment_only` makes lines appear. -/
theorem C70_violation_unused : (∃ p, TextResult Locale.utf8 { unusedLabels := true }
      (b! ".globl main\nmain:\n/*\ng:\n*/\n" ++ b! " jmp .L1\n nop\n.L1:\n ret\n") p ∧ p.outputText = b! ".globl main\nmain:\n/*\n") ∧
    ∃ p, TextResult Locale.utf8 { unusedLabels := true, commentOnly := true }
      (b! ".globl main\nmain:\n/*\ng:\n*/\n" ++ b! " jmp .L1\n nop\n.L1:\n ret\n") p ∧
      p.outputText = b! ".globl main\nmain:\n jmp .L1\n nop\n ret\n" :=
  ⟨textRun_exists (by decide +kernel), textRun_exists (by decide +kernel)⟩

/-- C70 fails if `.cfi_startproc` stands behind a label: with `directives`, turning on `comment_only` makes the line appear. -/
theorem C70_violation_proc : (∃ p, TextResult Locale.utf8 { directives := true }
      b! ".loc 1 2\n/*\n.text\n*/\nb: .cfi_startproc\n" p ∧ p.outputText = b! "/*\n*/\n") ∧
    ∃ p, TextResult Locale.utf8 { directives := true, commentOnly := true }
      b! ".loc 1 2\n/*\n.text\n*/\nb: .cfi_startproc\n" p ∧ p.outputText = b! "b: .cfi_startproc\n" :=
  ⟨textRun_exists (by decide +kernel), textRun_exists (by decide +kernel)⟩

end AsmParser
