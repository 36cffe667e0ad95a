/-
C76: running text mode on its own output.
-/
import Verif.Proofs.Again
import Verif.Props.TextVisible
import Verif.Proofs.TextView
import Verif.Proofs.Recognize

namespace AsmParser

attribute [local irreducible] Re.search Re.fullMatch

theorem run_twice {f : Filter} {s o o' : Str} (h : ((textRun f s).any fun p => decide (p.outputText = o)) = true)
    (h' : ((textRun f o).any fun p => decide (p.outputText = o')) = true) : ∃ p p', TextResult Locale.utf8 f s p ∧ TextResult Locale.utf8 f p.outputText p' ∧
      p.outputText = o ∧ p'.outputText = o' := by
  obtain ⟨p, h1, h2⟩ := textRun_exists h
  obtain ⟨p', h3, h4⟩ := textRun_exists h'
  exact ⟨p, p', h1, by rw [h2]; exact h3, h2, h4⟩

/-- C76: removing white space from a line from which it has been removed changes nothing. -/
theorem C76_whitespace (s : Str) (b b' : Bool) :
    squashHorizontalWhitespaceWithQuotes (squashHorizontalWhitespaceWithQuotes s b) b' = squashHorizontalWhitespaceWithQuotes s b :=
  squashQuotes_twice s b b'

/-- C76: expanding the tabs of a line whose tabs have been expanded changes nothing. -/
theorem C76_tabs (s : Str) : expandTabs (expandTabs s) = expandTabs s := by
  rw [expandTabs_eq (expandTabs s), padTabs_id (by rw [expandTabs_eq]; exact padTabs_no_tab 0 s)]

/-- C76: text mode with the filters by which an output was made gives this output again.  Conditions on the output: no line of it
starts inline assembly; with `directives`, it does not contain `.cfi_startproc`; with both `comment_only` and `whitespace`, no line
of it starts with a slash.  With `comment_only`, the input has no inline assembly, or no vertical tabs, form feeds and CRs.
(`C76_violation` shows that each condition is needed.)  Missing: the filter `unused_labels` (for which the claim is false, see
`C76_violation_labels`), and data in the compatibility mode together with `directives`. -/
theorem C76_again_partial (L L' : Locale) (f : Filter) (s : Str) (p p' : TParser) (h : TextResult L f s p)
    (h' : TextResult L' f p.outputText p') (h1 : f.unusedLabels = false) (h2 : NoLooseData f s)
    (h3 : NoInlineAsm p.outputText) (h4 : f.directives = true → ¬ Contains p.outputText b! ".cfi_startproc")
    (h5 : f.commentOnly = true → f.whitespace = true → ∀ line ∈ inputLines p.outputText, ∀ bs r, Blanks bs → line ≠ bs ++ b! "/" ++ r)
    (h6 : f.commentOnly = true → NoInlineAsm s ∨ 11 ∉ s ∧ 12 ∉ s ∧ 13 ∉ s) :
    p'.outputText = p.outputText := by
  have e := C57_shown_partial L f s p h h1 h2
  have full : (inputLines s).take (inputLines s).length = inputLines s := List.take_length
  have hlines : inputLines p.outputText = collapse (scan f s).shown := by
    rw [e]
    refine inputLines_unlines _ fun l hl => ?_
    exact shown_newline f s l (collapseFrom_mem _ _ hl)
  have hst : ∀ t ∈ (scan f s).shown, t ≠ [] → Stable f t := by
    intro t ht hne
    have hm : t ∈ inputLines p.outputText := by rw [hlines]; exact mem_collapseFrom true hne ht
    refine ⟨fun bs r hb => h3 t hm bs r hb, fun hd hc => h4 hd ?_, fun hc hw bs r hb e => h5 hc hw t hm bs r hb (by rw [e]; simp)⟩
    rw [hlines] at hm
    obtain ⟨a, b, hab⟩ := List.append_of_mem hm
    obtain ⟨x, y, hxy⟩ := hc
    refine ⟨unlines a ++ x, y ++ [10] ++ unlines b, ?_⟩
    rw [e, hab, hxy]
    simp [unlines]
  have := (again_all h6 (inputLines s).length (by rw [full]; exact hst)).2.shown
  rw [full] at this
  have hb : (scan f p.outputText).shown = collapse (scan f s).shown := by
    unfold scan
    rw [hlines]
    exact this
  have e' := C57_shown_partial L' f _ p' h' h1 fun a b x hx => h2 a b x (collapseFrom_mem _ _ (by rw [hb] at hx; exact hx))
  rw [e', hb, collapse_collapse, ← e]

/-- A function with comments, directives and tabs. -/
def againSample : Str :=
  b! "\t.text\n" ++ b! "f:\n" ++ b! "\t.cfi_startproc\n" ++ b! "# only a comment\n" ++ b! "\tmov\t$1,  %eax # done\n" ++
  b! "/* block\n" ++ b! "\tnop */ nop\n" ++ b! "\n\n" ++ b! ".L1:\n" ++ b! "\t.string\t\"a  b\"  \n" ++ b! "\t.loc 1 2\n"

/-- What is shown of it. -/
def againOutput : Str := b! "f:\n" ++ b! "  mov $1, %eax # done\n" ++ b! "\n" ++ b! ".L1:\n" ++ b! "  .string \"a  b\"\n"

/-- The filters of the example. -/
def againFilter : Filter := { commentOnly := true, directives := true, whitespace := true, compatmode := false }

example : againOutput ≠ againSample ∧ ∃ p, TextResult Locale.utf8 againFilter againSample p ∧ p.outputText = againOutput ∧
    NoInlineAsm p.outputText ∧ ¬ Contains p.outputText b! ".cfi_startproc" ∧
    (∀ line ∈ inputLines p.outputText, ∀ bs r, Blanks bs → line ≠ bs ++ b! "/" ++ r) ∧ 11 ∉ againSample ∧ 12 ∉ againSample ∧ 13 ∉ againSample := by
  obtain ⟨p, h, e⟩ : ∃ p, TextResult Locale.utf8 againFilter againSample p ∧ p.outputText = againOutput := textRun_exists (by decide +kernel)
  refine ⟨by decide, p, h, e, ?_, ?_, ?_, by decide, by decide, by decide⟩
  · rw [e]
    intro line hl bs r hb
    refine ⟨fun hx => ?_, fun hx => ?_⟩
    · have hm : c! 'A' ∈ line := by rw [hx]; simp
      exact absurd (inputLines_chars hl hm).1 (by decide)
    · have hm : c! 'A' ∈ line := by rw [hx]; simp
      exact absurd (inputLines_chars hl hm).1 (by decide)
  · rw [e, ← occurs_iff]; decide
  · rw [e]
    intro line hl bs r hb hx
    have hm : c! '/' ∈ line := by rw [hx]; simp
    exact absurd (inputLines_chars hl hm).1 (by decide)

/-- Each condition of `C76_again_partial` is needed: in each of these cases only one of them fails, and the second output differs
from the first one.

A tab after `#` becomes a space, and then `# Begin ASM` starts inline assembly, where labels are moved to the left.
A line with `.cfi_startproc` and something else is shown only if there is a current source line, but `.loc` is not shown.
`/ / a` becomes a comment if white space is removed.
A CR before a label in inline assembly is removed, and then `@a:` is taken for a comment. -/
theorem C76_violation :
    (∃ p p', TextResult Locale.utf8 {} b! "      #\tBegin ASM\n a:\n" p ∧ TextResult Locale.utf8 {} p.outputText p' ∧
      p.outputText = b! "      # Begin ASM\n a:\n" ∧ p'.outputText = b! "      # Begin ASM\na:\n") ∧
    (∃ p p', TextResult Locale.utf8 { directives := true, compatmode := false } b! "\t.loc 1 2\nf: .cfi_startproc\n" p ∧
      TextResult Locale.utf8 { directives := true, compatmode := false } p.outputText p' ∧
      p.outputText = b! "f: .cfi_startproc\n" ∧ p'.outputText = []) ∧
    (∃ p p', TextResult Locale.utf8 { commentOnly := true, whitespace := true } b! "/ / a\n" p ∧
      TextResult Locale.utf8 { commentOnly := true, whitespace := true } p.outputText p' ∧ p.outputText = b! "// a\n" ∧ p'.outputText = []) ∧
    (∃ p p', TextResult Locale.utf8 { commentOnly := true } b! "#APP\n\r@a:\n" p ∧
      TextResult Locale.utf8 { commentOnly := true } p.outputText p' ∧ p.outputText = b! "@a:\n" ∧ p'.outputText = []) := by
  refine ⟨?_, ?_, ?_, ?_⟩
  · exact run_twice (by decide +kernel) (by decide +kernel)
  · exact run_twice (by decide +kernel) (by decide +kernel)
  · exact run_twice (by decide +kernel) (by decide +kernel)
  · exact run_twice (by decide +kernel) (by decide +kernel)

/-- With `unused_labels` and `directives` the claim is false even for the simplest function: the directive that exports it is not
shown, so the second run takes its label for unused. -/
theorem C76_violation_labels :
    ∃ p p', TextResult Locale.utf8 { unusedLabels := true, directives := true, compatmode := false } b! "\t.globl f\nf:\n\tret\n" p ∧
      TextResult Locale.utf8 { unusedLabels := true, directives := true, compatmode := false } p.outputText p' ∧
      p.outputText = b! "f:\n        ret\n" ∧ p'.outputText = [] :=
  run_twice (by decide +kernel) (by decide +kernel)

end AsmParser
