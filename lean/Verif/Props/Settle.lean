/-
Property C60: which directive gives a label its source position, for all inputs.
-/
import Verif.Proofs.Settle
import Verif.Props.Sources

namespace AsmParser

attribute [local irreducible] Re.search Re.fullMatch

/-- C60: every nonempty output line comes from a line of the input that is kept, in the order of the input.  If it is no label, it
shows the last position set up to this line.  If it is a label, it shows the position after the last line that gives its position
to this label, if there is one: a `.loc` or `.d2line` later in the input, without a blank line in between, such that of the
lines in between only internal labels are kept.  Otherwise it shows the last position set up to the label, too. -/
theorem C60_labels [Recognizers] (L : Locale) (f : Filter) (s : Str) (p : TParser) (h : TextResult L f s p) :
    ∃ zs : List (TLine × Nat × Nat), zs.map (·.1) = p.lines.filter (fun l => l.text ≠ []) ∧ zs.Pairwise (fun a b => a.2.1 < b.2.1) ∧
      ∀ l k m, (l, k, m) ∈ zs →
        (∃ t, (seen f s)[k]? = some t ∧ t.Kept f ∧ t.text = l.text) ∧
        (l.isLabel = false → m = k) ∧
        (l.isLabel = true → (m = k ∧ ∀ j, ¬ GivesPosition f s k j) ∨ GivesPosition f s k m ∧ ∀ j, GivesPosition f s k j → j ≤ m) ∧
        ∃ q, PositionAt ((seen f s).take (m + 1)) q ∧ ShownAs (seen f s) q l.shownSource := by
  obtain ⟨hs, zs, h1, h2, h3⟩ := finalSettled h
  refine ⟨zs, h1, h2, fun l k m hz => ?_⟩
  obtain ⟨l0, e, g, ⟨t, ht, hk⟩, a1, a2⟩ := h3 _ hz
  have e : l = p.finishKept l0 := e
  subst e
  obtain ⟨q, hq, hh⟩ := g.pos
  refine ⟨⟨t, ht, hk, ?_⟩, ?_, fun hl => ?_, q, hq, shownAs hs hh⟩
  · have := g.text
    rw [ht] at this
    simp only [Option.map_some, Option.some.injEq] at this
    rw [finishKept_text, this]
  · rw [finishKept_isLabel]; exact g.eq
  · rw [finishKept_isLabel] at hl
    rcases a1 with a1 | a1
    · have a1 : m = k := a1
      refine .inl ⟨a1, fun j hj => ?_⟩
      have := a2 hl j hj
      have h4 := hj.1
      have this : j ≤ m := this
      have h4 : k < j := h4
      omega
    · exact .inr ⟨a1, a2 hl⟩

/-- A label of a function, an internal label, two directives and an instruction: the labels get the position of the last of the
directives.  A blank line after a label, or an instruction, keeps the label from getting one. -/
example : (∃ p, TextResult Locale.utf8 { directives := true } b! ".file 1 \"a.c\"\nf:\n.L1:\n.loc 1 2\n.loc 1 3\n ret\n" p ∧
      p.lines.map (fun l => (l.text, l.shownSource)) =
        [(b! "f:", some (b! "a.c", 3, 0)), (b! ".L1:", some (b! "a.c", 3, 0)), (b! " ret", some (b! "a.c", 3, 0))]) ∧
    (∃ p, TextResult Locale.utf8 { directives := true } b! ".file 1 \"a.c\"\nf:\n\n.loc 1 3\n ret\n" p ∧
      p.lines.map (fun l => (l.text, l.shownSource)) = [(b! "f:", none), ([], none), (b! " ret", some (b! "a.c", 3, 0))]) ∧
    ∃ p, TextResult Locale.utf8 { directives := true } b! ".file 1 \"a.c\"\nf:\n.loc 1 2\ng:\n.loc 1 3\n ret\n" p ∧
      p.lines.map (fun l => (l.text, l.shownSource)) =
        [(b! "f:", some (b! "a.c", 2, 0)), (b! "g:", some (b! "a.c", 3, 0)), (b! " ret", some (b! "a.c", 3, 0))] :=
  ⟨textRun_exists (by decide +kernel), textRun_exists (by decide +kernel), textRun_exists (by decide +kernel)⟩

end AsmParser
