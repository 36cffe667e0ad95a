/-
C90: directives that are filtered out do not influence the text output.
-/
import Verif.Proofs.Silent
import Verif.Proofs.Recognize
import Verif.Props.TextVisible

namespace AsmParser

attribute [local irreducible] Re.search Re.fullMatch

/-- C90 (partial): with the filter `directives`, leaving out directives (that neither define labels nor place data) outside block
comments does not change the text output.  (`WithoutDirectives` is in `Spec/Silent.lean`.)  Missing: the filter `unused_labels` (the
directives decide which labels are used), data in the compatibility mode, CUDA functions, lines with `.cfi_startproc` and something
else, and lines with blanks only. -/
theorem C90_directives_partial (L L' : Locale) (f : Filter) (ls ls' : List Str) (p p' : TParser) (hd : f.directives = true)
    (h : WithoutDirectives f false ls ls') (h1 : ∀ l ∈ ls, 10 ∉ l) (hb : ∀ l ∈ ls, Blanks l → l = [])
    (hproc : ∀ l ∈ ls, Contains (ink l) b! ".cfi_startproc" → nonBlanks l = b! ".cfi_startproc")
    (hcuda : NoCuda (unlines ls)) (hu : f.unusedLabels = false) (hdata : NoLooseData f (unlines ls))
    (hp : TextResult L f (unlines ls) p) (hp' : TextResult L' f (unlines ls') p') : p.outputText = p'.outputText := by
  have h2 : ∀ l ∈ ls', 10 ∉ l := fun l hl => h1 l (h.mem l hl)
  have hcuda' : Headless ls := by
    unfold NoCuda at hcuda
    rw [inputLines_unlines ls h1] at hcuda
    exact hcuda
  have e : (scan f (unlines ls)).shown = (scan f (unlines ls')).shown := by
    unfold scan
    rw [inputLines_unlines ls h1, inputLines_unlines ls' h2]
    exact without_lines hd h (procAlone hproc) hcuda' hb {} {} (fun _ => rfl) rfl rfl ⟨rfl, rfl, rfl, rfl, rfl, rfl⟩
  rw [C57_shown_partial L f _ p hp hu hdata, C57_shown_partial L' f _ p' hp' hu fun a b x hx => hdata a b x (by rw [e]; exact hx), e]

/-- A function compiled with debug information, and without. -/
def debugSample : List Str := [b! "\t.text", b! "f:", b! ".LFB0:", b! "\t.file 1 \"a.c\"", b! "\t.loc 1 2 3", b! "\t.cfi_startproc", b! "/* a", b! "\t.loc 1 2 3", b! "*/",
  b! "\tpush\trbp", b! "\t.cfi_def_cfa_offset 16", b! "", b! "\tret", b! "\t.cfi_endproc", b! ".LC0:", b! "\t.long\t1"]

def debugless : List Str := [b! "f:", b! ".LFB0:", b! "/* a", b! "\t.loc 1 2 3", b! "*/", b! "\tpush\trbp", b! "", b! "\tret", b! ".LC0:", b! "\t.long\t1"]

example (f : Filter) : WithoutDirectives f false debugSample debugless := by
  refine .directive ?_ (.line (.line (.directive ?_ (.directive ?_ (.directive ?_ (.line (.line (.line (.line (.directive ?_ (.line (.line
    (.directive ?_ (.line (.line .nil)))))))))))))))
  all_goals exact onlyDirective ⟨b! "\t", _, by decide, rfl⟩ (by decide) (by decide) (by rw [← occurs_iff]; decide)

example : (∀ l ∈ debugSample, 10 ∉ l) ∧ (∀ l ∈ debugSample, Blanks l → l = []) ∧
    (∀ l ∈ debugSample, occurs b! ".cfi_startproc" (ink l) = true → nonBlanks l = b! ".cfi_startproc") ∧ NoCuda (unlines debugSample) := by
  refine ⟨by decide, by unfold Blanks; decide, by decide +kernel, ?_⟩
  unfold NoCuda
  simp only [← occurs_iff]
  decide +kernel

example : (textRun { directives := true, compatmode := false } (unlines debugSample)).map (·.outputText) =
      some (b! "f:\n" ++ b! ".LFB0:\n" ++ b! "/* a\n*/\n" ++ b! "        push    rbp\n\n" ++ b! "        ret\n" ++ b! ".LC0:\n" ++ b! "        .long   1\n") ∧
    (textRun { directives := true, compatmode := false } (unlines debugless)).map (·.outputText) =
      some (b! "f:\n" ++ b! ".LFB0:\n" ++ b! "/* a\n*/\n" ++ b! "        push    rbp\n\n" ++ b! "        ret\n" ++ b! ".LC0:\n" ++ b! "        .long   1\n") := by
  decide +kernel

/-- C90 does not hold in full.  A label with `.cfi_startproc` in its line is shown only after a source position; a function whose label
no directive exports is not shown with `unused_labels`; and in the parameters of a CUDA function directives are shown. -/
theorem C90_violation :
    ((∃ p, TextResult Locale.utf8 { directives := true } b! "\t.loc 1 5\nf: .cfi_startproc\n\tret\n" p ∧ p.outputText = b! "f: .cfi_startproc\n        ret\n") ∧
      ∃ p, TextResult Locale.utf8 { directives := true } b! "f: .cfi_startproc\n\tret\n" p ∧ p.outputText = b! "        ret\n") ∧
    ((∃ p, TextResult Locale.utf8 { directives := true, unusedLabels := true } b! "\t.globl f\nf:\n\tret\n" p ∧ p.outputText = b! "f:\n        ret\n") ∧
      ∃ p, TextResult Locale.utf8 { directives := true, unusedLabels := true } b! "f:\n\tret\n" p ∧ p.outputText = []) ∧
    ((∃ p, TextResult Locale.utf8 { directives := true } b! ".func f(\n\t.param .b32 a\n)\n\tret\n" p ∧
        p.outputText = b! ".func f(\n" ++ b! "        .param .b32 a\n)\n" ++ b! "        ret\n") ∧
      ∃ p, TextResult Locale.utf8 { directives := true } b! ".func f(\n)\n\tret\n" p ∧
        p.outputText = b! ".func f(\n)\n" ++ b! "        ret\n") := by
  refine ⟨⟨?_, ?_⟩, ⟨?_, ?_⟩, ?_, ?_⟩ <;> exact textRun_exists (by decide +kernel)

end AsmParser
