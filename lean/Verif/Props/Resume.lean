/-
C86: text mode can resume at line boundaries.
-/
import Verif.Proofs.Resume
import Verif.Proofs.Recognize
import Verif.Spec.TextSamples

namespace AsmParser

attribute [local irreducible] Re.search Re.fullMatch

/-- C86 (partial): if an input is read in several calls, split at line ends, the text output is the same as for one call.  Missing:
the filter `unused_labels`, and data in the compatibility mode together with `directives`, for which it is false; and the JSON
output (`C86_violation`). -/
theorem C86_text_partial (L L' : Locale) (f : Filter) (ss : List Str) (p q : TParser) (h : TextResults L f ss p)
    (h' : TextResult L' f ss.flatten q) (hs : ∀ s ∈ ss.dropLast, s = [] ∨ s.getLast? = some 10) (hu : f.unusedLabels = false)
    (hd : NoLooseData f ss.flatten) : p.outputText = q.outputText := by
  have e : scan f ss.flatten = scanned f (ss.flatMap inputLines) := by
    unfold scan scanned; rw [inputLines_flatten ss hs]
  obtain ⟨h1, -, -⟩ := between_calls h hu fun a b => by rw [← e]; exact hd a b
  rw [outputText_unlines, outputText_unlines, hd.texts h' hu, h1.core.shown, e]

/-- C86 (partial): for arbitrary pieces, an unfinished last line of a piece is read like a complete one. -/
theorem C86_lines_partial (L L' : Locale) (f : Filter) (ss : List Str) (p q : TParser) (h : TextResults L f ss p)
    (h' : TextResult L' f (unlines (ss.flatMap inputLines)) q) (hu : f.unusedLabels = false)
    (hd : NoLooseData f (unlines (ss.flatMap inputLines))) : p.outputText = q.outputText := by
  have e : scan f (unlines (ss.flatMap inputLines)) = scanned f (ss.flatMap inputLines) := by
    unfold scan scanned
    rw [inputLines_unlines _ fun l hl => ?_]
    obtain ⟨s, -, hl⟩ := List.mem_flatMap.1 hl
    exact inputLines_noNewline s l hl
  obtain ⟨h1, -, -⟩ := between_calls h hu fun a b => by rw [← e]; exact hd a b
  rw [outputText_unlines, outputText_unlines, hd.texts h' hu, h1.core.shown, e]

/-- C86 (partial): under the same conditions a further call does not go out of bounds, and afterwards every recorded position of
a label is that of a line that defines it (cf. C43, whose violation for a parser that is used again needs `unused_labels`). -/
theorem C86_positions_partial (L : Locale) (f : Filter) (ss : List Str) (s : Str) (p p' : TParser) (h : TextResults L f ss p)
    (o : Order) (n : Nat) (v v' : List Str) (h' : p.fromStream L o n s v = some (p', v')) (hu : f.unusedLabels = false)
    (hd : NoLooseData f (unlines ((ss ++ [s]).flatMap inputLines))) :
    (∀ name k, (name, k) ∈ p'.labelsDefined → 1 ≤ k ∧ ∃ l, p'.lines[k - 1]? = some l ∧ l.isLabel = true ∧ l.label = name) ∧
      p'.ub = (p.readStream L s).ub := by
  have e : scan f (unlines ((ss ++ [s]).flatMap inputLines)) = scanned f ((ss ++ [s]).flatMap inputLines) := by
    unfold scan scanned
    rw [inputLines_unlines _ fun l hl => ?_]
    obtain ⟨s, -, hl⟩ := List.mem_flatMap.1 hl
    exact inputLines_noNewline s l hl
  have hd' : f.compatmode = true → f.directives = true →
      ∀ t ∈ (scanned f ((ss ++ [s]).flatMap inputLines)).shown, ¬ StartsWithOneOf dataDirectives t := by
    rw [← e]; exact hd
  rw [List.flatMap_append, List.flatMap_singleton] at hd'
  obtain ⟨h1, h2, h3⟩ := between_calls h hu fun a b t ht => hd' a b t ((scanned_prefix f _ _).subset ht)
  obtain ⟨h4, h5, h6⟩ := between_read L f s _ p h2 h3 h1
  obtain ⟨h7, -, -, -, -, h8⟩ := between_call h' h5 h6 h4 hu hd'
  exact ⟨fun name k hk => h7.table.sound _ hk, h8⟩

/-- Two calls. -/
def textRun2 (f : Filter) (s t : Str) : Option TParser :=
  (textRun f s).bind fun p => (p.fromStream Locale.utf8 Order.id 100 t []).map (·.1)

theorem textRun2_exists {f : Filter} {s t : Str} {P : TParser → Prop} [DecidablePred P]
    (h : ((textRun2 f s t).any fun p => decide (P p)) = true) : ∃ p, TextResults Locale.utf8 f [s, t] p ∧ P p := by
  unfold textRun2 textRun at h
  cases h1 : (TParser.init f).fromStream Locale.utf8 Order.id 100 s [] with
  | none => rw [h1] at h; exact absurd h (by simp)
  | some x =>
    obtain ⟨q, v⟩ := x
    rw [h1] at h
    simp only [Option.map_some, Option.bind_some] at h
    cases h2 : q.fromStream Locale.utf8 Order.id 100 t [] with
    | none => rw [h2] at h; exact absurd h (by simp)
    | some y =>
      obtain ⟨p, w⟩ := y
      rw [h2] at h
      exact ⟨p, .call (ss := [s]) _ _ _ _ (.call (ss := []) _ _ _ _ .start h1) h2, by simpa using h⟩

/-- The conditions can be met. -/
example : ∃ p, TextResults Locale.utf8 { directives := true, commentOnly := true } [b! "f:\n\t.loc 1 2\n# x\n\tret\n\n", b! "\n\tnop\nx:\n\t.long f"] p ∧
    p.outputText = b! "f:\n        ret\n\n        nop\nx:\n        .long f\n" :=
  textRun2_exists (by decide +kernel)

/-- C86 is violated: in the JSON output, references to labels that only a later call defines are lost, and only the lines of the
last call are counted; with `unused_labels`, a function that a later call exports is lost. -/
theorem C86_violation :
    ((∃ p, TextResults Locale.utf8 {} [b! "\tjmp .L1\n", b! ".L1:\n\tret\n"] p ∧
        p.lines.map (·.labels.map (·.name)) = [[], [], []] ∧ (p.jsonDoc 0).filteredCount = -1) ∧
      ∃ p, TextResult Locale.utf8 {} (b! "\tjmp .L1\n" ++ b! ".L1:\n\tret\n") p ∧
        p.lines.map (·.labels.map (·.name)) = [[b! ".L1"], [], []] ∧ (p.jsonDoc 0).filteredCount = 0) ∧
    (∃ p, TextResults Locale.utf8 { unusedLabels := true } [b! "f:\n\tret\n", b! "\t.globl f\n"] p ∧
        p.outputText = b! "        .globl f\n") ∧
      ∃ p, TextResult Locale.utf8 { unusedLabels := true } (b! "f:\n\tret\n" ++ b! "\t.globl f\n") p ∧
        p.outputText = b! "f:\n        ret\n        .globl f\n" := by
  refine ⟨⟨?_, ?_⟩, ?_, ?_⟩
  · exact textRun2_exists (by decide +kernel)
  · exact textRun_exists (by decide +kernel)
  · exact textRun2_exists (by decide +kernel)
  · exact textRun_exists (by decide +kernel)

end AsmParser
