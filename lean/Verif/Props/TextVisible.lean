/-
Property C57: the exact output of text mode with the filters `comment_only`, `directives` and `whitespace`.
-/
import Verif.Proofs.TextVisible
import Verif.Proofs.SourceRead
import Verif.Spec.TextSamples
import Verif.Proofs.Compat

namespace AsmParser

attribute [local irreducible] Re.search Re.fullMatch

/-- C57 (partial): the output has exactly the lines outside block comments (if comments are filtered) that are neither comments
(if comments are filtered) nor plain directives (if directives are filtered), in their order, cleaned, and with empty lines
collapsed.  `keep` is any program that tells which lines are visible.  Missing: lines that have nothing but blanks, inline
assembly, CUDA headers, `.cfi_startproc` behind something else (see `C57_violation`), the filters `unused_labels` and
`library_functions`, and data in the compatibility mode together with `directives` (it may be removed, C46). -/
theorem C57_visible_lines_partial (L : Locale) (f : Filter) (s : Str) (p : TParser) (h : TextResult L f s p)
    (h1 : f.unusedLabels = false) (h2 : f.libraryFunctions = false) (h3 : f.compatmode = true → f.directives = true → ∀ l ∈ inputLines s, ¬ StartsWithOneOf dataDirectives (cleaned f l))
    (hb : ∀ l ∈ inputLines s, Blanks l → l = []) (ha : NoInlineAsm s) (hn : NoCuda s)
    (hp : ∀ l ∈ inputLines s, f.directives = true → Contains (cleaned f l) b! ".cfi_startproc" → PlainDirective (cleaned f l))
    (keep : Str → Bool) (hkeep : ∀ l, keep l = true ↔ Visible f l) :
    p.outputText = unlines (collapse
      (((if f.commentOnly then outsideComments false (inputLines s) else inputLines s).filter keep).map (cleaned f))) := by
  have vis := visLines L f h2 keep hkeep s fun l hl => ⟨plainLine hb ha l hl, hn l hl, hp l hl⟩
  have hh : NoLooseLines L f s := by
    intro a b t ht
    have ht := collapse_members _ (vis ▸ ht)
    obtain ⟨l, hl, rfl⟩ := List.mem_map.1 ht
    refine h3 a b l ?_
    have := (List.mem_filter.1 hl).1
    unfold uncommented at this
    split at this
    · exact outsideComments_sub _ _ l this
    · exact this
  rw [outputText_unlines, hh.texts h h1, vis]
  rfl

/-- There is such a program. -/
example (f : Filter) : ∃ keep : Str → Bool, ∀ l, keep l = true ↔ Visible f l := by
  classical
  exact ⟨fun l => decide (Visible f l), fun l => by simp⟩

/-- C57 (partial), for all inputs: the output has exactly the lines that the scan of `Spec/Sources.lean` shows, in their order, and
with empty lines collapsed.  Missing: the filter `unused_labels`, data in the compatibility mode together with `directives` (it may
be removed, C46), and what `Scan.see` says about `.cfi_startproc` (see `C57_violation`). -/
theorem C57_shown_partial [Recognizers] (L : Locale) (f : Filter) (s : Str) (p : TParser) (h : TextResult L f s p)
    (h1 : f.unusedLabels = false) (h2 : NoLooseData f s) : p.outputText = unlines (collapse (scan f s).shown) := by
  rw [outputText_unlines, h2.texts h h1]

/-- A small function with a comment, directives and a block comment, and what is shown of it. -/
def visibleSample : Str :=
  b! "\t.text\n" ++ b! "f:\n" ++ b! "\t.cfi_startproc\n" ++ b! "# only a comment\n" ++ b! "\tret # done\n" ++
  b! "/* block\n" ++ b! "\tnop */ nop\n" ++ b! "\n\n" ++ b! ".L1:\n" ++ b! "\t.long\tf\n" ++ b! "\t.loc 1 2\n"

example : (textRun { commentOnly := true, directives := true, compatmode := false } visibleSample).map (·.outputText) =
    some (b! "f:\n" ++ b! "        ret # done\n" ++ b! "\n" ++ b! ".L1:\n" ++ b! "        .long   f\n") := by decide +kernel

example : (∀ l ∈ inputLines visibleSample, Blanks l → l = []) ∧ NoInlineAsm visibleSample ∧ NoCuda visibleSample := by
  refine ⟨by decide +kernel, ?_, ?_⟩
  · intro line hl bs r hb
    have h : ∀ line ∈ inputLines visibleSample, startAppBlock line = false ∧ startAsmNesting line = false := by decide +kernel
    constructor
    · intro e
      have := (startAppBlock_iff line).2 ⟨bs, r, hb, e⟩
      rw [(h line hl).1] at this
      exact absurd this (by simp)
    · intro e
      have := (startAsmNesting_iff line).2 ⟨bs, r, hb, e⟩
      rw [(h line hl).2] at this
      exact absurd this (by simp)
  · have h : ∀ l ∈ inputLines visibleSample, occurs b! ".entry" (ink l) = false ∧ occurs b! ".func" (ink l) = false := by
      decide +kernel
    intro l hl
    have := h l hl
    constructor
    · intro hc
      have hc := (occurs_iff _ _).2 hc
      exact absurd (this.1.symm.trans hc) (by simp)
    · intro hc
      have hc := (occurs_iff _ _).2 hc
      exact absurd (this.2.symm.trans hc) (by simp)

/-- The only line of it with `.cfi_startproc` is a plain directive. -/
example (f : Filter) (hw : f.whitespace = false) (l : Str) (hl : l ∈ inputLines visibleSample)
    (hc : Contains (cleaned f l) b! ".cfi_startproc") : PlainDirective (cleaned f l) := by
  unfold cleaned at hc ⊢
  rw [if_neg (by simp [hw])] at hc ⊢
  have h : ∀ l ∈ inputLines visibleSample, occurs b! ".cfi_startproc" (expandTabs l) = true →
      isDirective (expandTabs l) = true ∧ getLabelFromLine (expandTabs l) = none ∧ isDataDefn (expandTabs l) = false ∧
      isInstOpcode (expandTabs l) = false := by decide +kernel
  obtain ⟨h1, h2, h3, h4⟩ := h l hl ((occurs_iff _ _).2 hc)
  refine ⟨(C29_directive _).1 h1, fun n => getLabelFromLine_none h2 n, ?_, ?_⟩
  · rw [← C29_data, h3]; simp
  · rw [← isInstOpcode_iff, h4]; simp

/-- Inline assembly, a line of blanks, a CUDA function and `.cfi_startproc` before and after `.loc`. -/
def shownSample : Str :=
  b! "#APP\n" ++ b! "  x: # label\n" ++ b! "# no comment\n" ++ b! "#NO_APP\n" ++ b! " \t\n" ++ b! "f: .cfi_startproc\n" ++ b! "\t.loc 1 2\n" ++
  b! "g: .cfi_startproc\n" ++ b! ".visible .func h(\n" ++ b! ".param .b64 p\n" ++ b! ")\n" ++ b! "@%p1 bra L;\n" ++ b! "// end\n" ++ b! "}\n"

example : (scan { commentOnly := true, directives := true, compatmode := false } shownSample).shown =
    [b! "x: # label", [], b! "g: .cfi_startproc", b! ".visible .func h(", b! ".param .b64 p", b! ")", b! "@%p1 bra L;", b! "}"] := by
  decide +kernel

/-- A line that mentions `.cfi_startproc` is taken for a directive, whatever else it says. -/
theorem C57_violation : ∃ p, TextResult Locale.utf8 { directives := true, compatmode := false }
    b! "f: .cfi_startproc\n mov eax, 1 # .cfi_startproc\n ret\n" p ∧ p.outputText = b! " ret\n" :=
  textRun_exists (by decide +kernel)

end AsmParser
