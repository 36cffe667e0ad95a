/-
C78: text mode only adds to its output when there is more input.
-/
import Verif.Proofs.Append
import Verif.Props.TextVisible
import Verif.Proofs.Recognize

namespace AsmParser

attribute [local irreducible] Re.search Re.fullMatch

/-- C78 (partial): the output for an input of complete lines is the beginning of the output for every longer input.  Missing: the
filter `unused_labels`, and data in the compatibility mode together with `directives`, for which it is false (`C78_violation`). -/
theorem C78_append_partial (L L' : Locale) (f : Filter) (s t : Str) (p p' : TParser) (h : TextResult L f s p)
    (h' : TextResult L' f (s ++ t) p') (hs : s = [] ∨ s.getLast? = some 10) (h1 : f.unusedLabels = false)
    (h2 : NoLooseData f (s ++ t)) : p.outputText <+: p'.outputText := by
  obtain ⟨d, hd⟩ := scan_prefix f hs t
  rw [C57_shown_partial L f s p h h1 fun a b x hx => h2 a b x (by rw [← hd]; simp [hx]), C57_shown_partial L' f _ p' h' h1 h2]
  rw [← hd]
  exact unlines_prefix (collapseFrom_prefix true _ _)

/-- The conditions can be met. -/
example : (∃ p, TextResult Locale.utf8 { directives := true, commentOnly := true, compatmode := true } b! "f:\n\t.loc 1 2\n# x\n\tret\n\n" p ∧
      p.outputText = b! "f:\n        ret\n\n") ∧
    ∃ p, TextResult Locale.utf8 { directives := true, commentOnly := true, compatmode := true } b! "f:\n\t.loc 1 2\n# x\n\tret\n\n\n\tnop" p ∧
      p.outputText = b! "f:\n        ret\n\n        nop\n" := by
  refine ⟨?_, ?_⟩ <;> exact textRun_exists (by decide +kernel)

/-- With `unused_labels` a line can appear in the middle of the output.  In the compatibility mode with `directives`, too.  An
unfinished last line is shown as it is. -/
theorem C78_violation :
    ((∃ p, TextResult Locale.utf8 { unusedLabels := true } b! "\tnop\n.L1:\n\tret\n" p ∧
        p.outputText = b! "        nop\n        ret\n") ∧
      ∃ p, TextResult Locale.utf8 { unusedLabels := true } b! "\tnop\n.L1:\n\tret\n\t.globl .L1\n" p ∧
        p.outputText = b! "        nop\n.L1:\n        ret\n        .globl .L1\n") ∧
    ((∃ p, TextResult Locale.utf8 { directives := true, compatmode := true } b! "x:\n\t.long 1\n\tret\n" p ∧
        p.outputText = b! "x:\n        ret\n") ∧
      ∃ p, TextResult Locale.utf8 { directives := true, compatmode := true } b! "x:\n\t.long 1\n\tret\n\t.globl x\n" p ∧
        p.outputText = b! "x:\n        .long 1\n        ret\n") ∧
    (∃ p, TextResult Locale.utf8 {} b! "\tre" p ∧ p.outputText = b! "        re\n") ∧
      ∃ p, TextResult Locale.utf8 {} b! "\tret\n" p ∧ p.outputText = b! "        ret\n" := by
  refine ⟨⟨?_, ?_⟩, ⟨?_, ?_⟩, ?_, ?_⟩ <;> exact textRun_exists (by decide +kernel)

end AsmParser
