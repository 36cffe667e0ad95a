/-
C77: what comments say does not matter in text mode.
-/
import Verif.Proofs.Pieces
import Verif.Props.TextVisible
import Verif.Spec.TextSamples

namespace AsmParser

attribute [local irreducible] Re.search Re.fullMatch

/-- C77 (partial): with the filter `comment_only`, two inputs that differ only in what the comments say have the same results: the
same parser state, hence the same text, JSON and debug output, whatever the other filters.  Comments are block comments and lines
that are only comments.  Missing: comments with `.cfi_startproc`, `.cfi_endproc`, `.data`, `.text`, `.section` or a brace in them,
which do matter (`C77_violation`); comments after an instruction; and `#APP` and the like, which are meant to matter.  (`SameCode`
is in `Spec/Remarks.lean`.) -/
theorem C77_comments_partial (L : Locale) (f : Filter) (ls ls' : List Str) (p : TParser) (hc : f.commentOnly = true)
    (h : SameCode false ls ls') (h1 : ∀ l ∈ ls, 10 ∉ l) (h2 : ∀ l ∈ ls', 10 ∉ l) :
    TextResult L f (unlines ls) p ↔ TextResult L f (unlines ls') p := by
  have e : ∀ o n v, (TParser.init f).fromStream L o n (unlines ls) v = (TParser.init f).fromStream L o n (unlines ls') v := by
    intro o n v
    unfold TParser.fromStream
    rw [readStream_same L hc h h1 h2]
  constructor
  · rintro ⟨o, n, v, v', h⟩; exact ⟨o, n, v, v', by rw [← e]; exact h⟩
  · rintro ⟨o, n, v, v', h⟩; exact ⟨o, n, v, v', by rw [e]; exact h⟩

/-- A function with comments. -/
def remarksA : List Str :=
  [b! "f: # the function", b! "# return", b! "  // 0", b! "/* first .text", b! "   second }", b! "*/", b! "\tret", b! ";x"]
/-- The same with other comments. -/
def remarksB : List Str :=
  [b! "f: # the function", b! "\t; zur\xC3\xBCckgeben", b! "#", b! "/* #APP .section a", b! "f:", b! " **/ nop", b! "\tret", b! "#y"]

example : SameCode false remarksA remarksB := by
  refine .line (.remark ?_ ?_ (.remark ?_ ?_ (.opening (by decide) (by decide) (by decide) (.inside (by decide) (.inside (by decide)
    (.line (.remark ?_ ?_ .nil)))))))
  all_goals exact remark_sample _ ⟨_, _, rfl, by decide⟩ (by decide) (by decide) (by decide)

example : ((textRun { commentOnly := true } (unlines remarksA)).map (·.outputText)) = some b! "f: # the function\n        ret\n" := by
  decide +kernel

/-- Comments do matter if they have certain words in them.  A comment that mentions a section ends the current source position,
and the following instructions have none; it also changes the current section.  A closing brace in a comment does the same in CUDA
code.  A line shown because there is a source position is lost. -/
theorem C77_violation :
    ((∃ p, TextResult Locale.utf8 { commentOnly := true } b! ".file 1 \"a.c\"\n\t.loc 1 5\n# see text\n\tret\n" p ∧
        p.lines.map (·.source.line) = [0, 5, 5] ∧ p.lines.map (·.sect.s) = [[], [], []]) ∧
      ∃ p, TextResult Locale.utf8 { commentOnly := true } b! ".file 1 \"a.c\"\n\t.loc 1 5\n# see .text\n\tret\n" p ∧
        p.lines.map (·.source.line) = [0, 5, 0] ∧ p.lines.map (·.sect.s) = [[], [], b! "text"]) ∧
    ((∃ p, TextResult Locale.utf8 { commentOnly := true } b! ".file 1 \"a.c\"\n.func f(\n)\n.loc 1 5\n// {\nret;\n" p ∧
        p.lines.map (·.source.line) = [0, 0, 0, 5, 5]) ∧
      ∃ p, TextResult Locale.utf8 { commentOnly := true } b! ".file 1 \"a.c\"\n.func f(\n)\n.loc 1 5\n// }\nret;\n" p ∧
        p.lines.map (·.source.line) = [0, 0, 0, 5, 0]) ∧
    ((∃ p, TextResult Locale.utf8 { commentOnly := true, directives := true, compatmode := false } b! "\t.loc 1 5\n# data\nf: .cfi_startproc\n" p ∧
        p.outputText = b! "f: .cfi_startproc\n") ∧
      ∃ p, TextResult Locale.utf8 { commentOnly := true, directives := true, compatmode := false } b! "\t.loc 1 5\n# .data\nf: .cfi_startproc\n" p ∧
        p.outputText = []) := by
  refine ⟨⟨?_, ?_⟩, ⟨?_, ?_⟩, ?_, ?_⟩ <;> exact textRun_exists (by decide +kernel)

/-- C77 (partial): with the filter `comment_only`, leaving out block comments and lines that are only comments does not change the
text output, if no line of the input has blanks only.  (`LeftOut` is in `Spec/Remarks.lean`.)  Missing as above, and the filter
`unused_labels` and data in the compatibility mode together with `directives`. -/
theorem C77_removed_partial (L L' : Locale) (f : Filter) (ls ls' : List Str) (p p' : TParser) (hc : f.commentOnly = true)
    (h : LeftOut false ls ls') (h1 : ∀ l ∈ ls, 10 ∉ l) (h2 : ∀ l ∈ ls', 10 ∉ l) (hb : ∀ l ∈ ls, Blanks l → l = [])
    (hp : TextResult L f (unlines ls) p) (hp' : TextResult L' f (unlines ls') p') (hu : f.unusedLabels = false)
    (hd : NoLooseData f (unlines ls)) : p.outputText = p'.outputText := by
  have e : (scan f (unlines ls)).shown = (scan f (unlines ls')).shown := by
    unfold scan
    rw [inputLines_unlines ls h1, inputLines_unlines ls' h2, leftOut_lines hc h hb {} {} rfl rfl (Scan.Like.refl f {})]
  rw [C57_shown_partial L f _ p hp hu hd, C57_shown_partial L' f _ p' hp' hu fun a b x hx => hd a b x (by rw [e]; exact hx), e]

example : LeftOut false remarksA [b! "f: # the function", b! "  // 0", b! "\tret"] := by
  refine .line (by decide) (.remark ?_ (.line (by decide) (.opening (by decide) (.inside (.inside (.line (by decide) (.remark ?_ .nil)))))))
  all_goals exact remark_sample _ ⟨_, _, rfl, by decide⟩ (by decide) (by decide) (by decide)

/-- Blanks in the line before a comment: the comment takes them away, otherwise they are put in front of the next line. -/
theorem C77_violation_blanks :
    (∃ p, TextResult Locale.utf8 { commentOnly := true } b! "  \n# x\nret\n" p ∧ p.outputText = b! "ret\n") ∧
    ∃ p, TextResult Locale.utf8 { commentOnly := true } b! "  \nret\n" p ∧ p.outputText = b! "  ret\n" := by
  refine ⟨?_, ?_⟩ <;> exact textRun_exists (by decide +kernel)

end AsmParser
