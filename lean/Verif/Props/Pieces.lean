/-
C79: text mode filters the pieces of an input independently.
-/
import Verif.Proofs.Pieces
import Verif.Props.TextVisible
import Verif.Proofs.Recognize
import Verif.Spec.TextSamples

namespace AsmParser

attribute [local irreducible] Re.search Re.fullMatch

/-- C79 (partial): if the first piece of an input leaves nothing open, then the output for the input is the output for the first
piece followed by the output for the second piece, possibly with an empty line between them.  (`NothingOpen` is in
`Spec/Pieces.lean`.)  Missing: the filter `unused_labels`, and data in the compatibility mode together with `directives`, for which
it is false (`C78_violation`). -/
theorem C79_pieces_partial [Recognizers] (L L' L'' : Locale) (f : Filter) (s t : Str) (p q r : TParser) (hp : TextResult L f s p)
    (hq : TextResult L' f t q) (hr : TextResult L'' f (s ++ t) r) (h : NothingOpen f s) (h1 : f.unusedLabels = false)
    (h2 : NoLooseData f (s ++ t)) :
    r.outputText = p.outputText ++ q.outputText ∨ r.outputText = p.outputText ++ [10] ++ q.outputText := by
  have hd := scan_pieces f h.complete h.like t
  rw [C57_shown_partial L f s p hp h1 fun a b x hx => h2 a b x (by rw [hd]; simp [hx]),
    C57_shown_partial L' f t q hq h1 fun a b x hx => h2 a b x (by rw [hd]; simp [hx]), C57_shown_partial L'' f _ r hr h1 h2, hd]
  obtain ⟨b, e⟩ := collapse_pieces true (scan f s).shown (scan f t).shown
  unfold collapse at *
  rw [e]
  rcases collapseFrom_either b (scan f t).shown with e' | e'
  · left; rw [e']; simp [unlines, collapse]
  · right; rw [e']; simp [unlines, collapse]

/-- C79 (partial), with a condition on the text: the first piece consists of complete lines, none of which starts a block comment
(for `comment_only`), begins or ends inline assembly, has blanks only, has the keyword of a CUDA function header, or has a source
position (for `directives`). -/
theorem C79_plain_partial (L L' L'' : Locale) (f : Filter) (s t : Str) (p q r : TParser) (hp : TextResult L f s p)
    (hq : TextResult L' f t q) (hr : TextResult L'' f (s ++ t) r) (h : PlainPiece f s) (h1 : f.unusedLabels = false)
    (h2 : NoLooseData f (s ++ t)) :
    r.outputText = p.outputText ++ q.outputText ∨ r.outputText = p.outputText ++ [10] ++ q.outputText :=
  C79_pieces_partial L L' L'' f s t p q r hp hq hr h.open h1 h2

/-- A piece with everything closed again. -/
def pieceA : Str :=
  b! "f:\n\t.cfi_startproc\n" ++ b! "\t.loc 1 2\n/* a\n b */\n#APP\n l:\n#NO_APP\n" ++ b! "\tret # x\n\t.cfi_endproc\n\n"
/-- Another one. -/
def pieceB : Str := b! "\n\ng:\n\t.cfi_startproc\n\tnop\n"

example : NothingOpen { directives := true, commentOnly := true } pieceA :=
  ⟨.inr (by decide), by decide +kernel, by decide +kernel, by decide +kernel, by decide +kernel, fun _ => by decide +kernel⟩

example : PlainPiece { directives := true, commentOnly := true } b! "f:\n\t.cfi_startproc\n# x\n\tret\n" :=
  ⟨.inr (by decide), by decide,
    by
      have : ∀ l ∈ inputLines b! "f:\n\t.cfi_startproc\n# x\n\tret\n", startsWithWord [b! "#APP", b! "# Begin ASM"] l = false ∧
          startsWithWord [b! "#NO_APP", b! "# End ASM"] l = false := by decide
      intro l hl
      exact marker_free (this l hl).1 (this l hl).2,
    by decide, by
      have : ∀ l ∈ inputLines b! "f:\n\t.cfi_startproc\n# x\n\tret\n", occurs b! ".entry" (ink l) = false ∧ occurs b! ".func" (ink l) = false := by decide
      intro l hl
      rw [← occurs_iff, ← occurs_iff, (this l hl).1, (this l hl).2]
      simp,
    by
      have : ∀ l ∈ inputLines b! "f:\n\t.cfi_startproc\n# x\n\tret\n", ∀ w ∈ [b! ".loc", b! ".stabn", b! ".dbg", b! ".d2line"], occurs w (ink l) = false := by decide
      intro _ l hl w hw
      rw [← occurs_iff, this l hl w hw]
      simp⟩

/-- There is no data in these pieces. -/
example : NoLooseData { directives := true, commentOnly := true, compatmode := true } (pieceA ++ pieceB) := by
  intro _ _ t ht hd
  rw [← isDataDefn_iff] at hd
  have : ∀ t ∈ (scan { directives := true, commentOnly := true, compatmode := true } (pieceA ++ pieceB)).shown, isDataDefn t = false := by
    decide +kernel
  rw [this t ht] at hd
  cases hd

/-- Each of these things does matter if it is left open: a block comment, inline assembly, blanks, CUDA code and a current source
line. -/
theorem C79_violation :
    (∃ p, TextResult Locale.utf8 { commentOnly := true } b! "/*\n\tret\n" p ∧ p.outputText = []) ∧
    (∃ p, TextResult Locale.utf8 {} b! "#APP\n l:\n" p ∧ p.outputText = b! "#APP\nl:\n") ∧
    (∃ p, TextResult Locale.utf8 {} b! "  \nret\n" p ∧ p.outputText = b! "  ret\n") ∧
    (∃ p, TextResult Locale.utf8 { directives := true, compatmode := false } b! ".func f(\n.param x\n" p ∧ p.outputText = b! ".func f(\n.param x\n") ∧
    ∃ p, TextResult Locale.utf8 { directives := true, compatmode := false } b! "\t.loc 1 5\nf: .cfi_startproc\n" p ∧
      p.outputText = b! "f: .cfi_startproc\n" := by
  refine ⟨?_, ?_, ?_, ?_, ?_⟩ <;> exact textRun_exists (by decide +kernel)

/-- The outputs of the second pieces by themselves. -/
theorem C79_violation_alone :
    (∃ p, TextResult Locale.utf8 { commentOnly := true } b! "\tret\n" p ∧ p.outputText = b! "        ret\n") ∧
    (∃ p, TextResult Locale.utf8 {} b! " l:\n" p ∧ p.outputText = b! " l:\n") ∧
    (∃ p, TextResult Locale.utf8 {} b! "ret\n" p ∧ p.outputText = b! "ret\n") ∧
    (∃ p, TextResult Locale.utf8 { directives := true, compatmode := false } b! ".param x\n" p ∧ p.outputText = []) ∧
    ∃ p, TextResult Locale.utf8 { directives := true, compatmode := false } b! "f: .cfi_startproc\n" p ∧ p.outputText = [] := by
  refine ⟨?_, ?_, ?_, ?_, ?_⟩ <;> exact textRun_exists (by decide +kernel)

end AsmParser
