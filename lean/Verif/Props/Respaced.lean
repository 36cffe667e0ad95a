/-
C97: the filter `whitespace` changes nothing but blanks.
-/
import Verif.Proofs.Respaced
import Verif.Props.Gaps
import Verif.Props.TextJson
import Verif.Props.Remarks

namespace AsmParser

attribute [local irreducible] Re.search Re.fullMatch

theorem redetermine_worded (ls : List TLine) : ∀ n, redetermineLabels n (ls.map TLine.worded) = redetermineLabels n ls := by
  induction ls with
  | nil => intro n; rfl
  | cons l ls ih =>
    intro n
    rw [List.map_cons, redetermineLabels, redetermineLabels]
    simp only [ih]
    rfl

theorem document_worded {p q : TParser} (h : p.worded = q.worded) (time : Int) : (p.jsonDoc time).worded = (q.jsonDoc time).worded := by
  have e : ∀ p : TParser, (p.jsonDoc time).worded = { filter := p.worded.filter, lines := p.worded.lines.map TLine.toAsm, labels := redetermineLabels 1 p.worded.lines, originalLineCount := p.worded.totalLines, reproducible := false, time } := by
    intro p
    unfold TParser.jsonDoc JsonDoc.worded
    have e1 : p.worded.lines = p.lines.map TLine.worded := rfl
    rw [e1, redetermine_worded, List.map_map, List.map_map]
    rfl
  rw [e, e, h]

theorem init_worded (f : Filter) (b : Bool) : (TParser.init f).worded = (TParser.init { f with whitespace := b }).worded := rfl

theorem read_even (L : Locale) (f : Filter) (b : Bool) (s : Str) (h : EvenInput s) :
    ((TParser.init f).readStream L s).worded = ((TParser.init { f with whitespace := b }).readStream L s).worded := by
  rw [readStream_eq, readStream_eq]
  exact feed_worded L s [] [] (init_worded f b) ⟨rfl, rfl, fun _ => ⟨rfl, rfl⟩⟩ (fun c hc => by cases hc) (.inl rfl) rfl (fun l hl hn hb => ⟨l, hl, hn, hb⟩) h

/-- C97, for inputs in which squashing the blanks of a line keeps its words apart (C25, C26 tell when it does not): with and without the
filter `whitespace`, all runs correspond to each other, with the same iteration orders, the same bound for the recursion and the same
`visited` set before and after; and the documents are the same up to the number of blanks where there are some, and the columns of the
references.  So the same lines are kept, with the same flags, the same references to the same labels, the same source positions, sections
and parent labels; the label definitions and the number of lines read are the same.  The text output has the same lines up to the number
of blanks.  All other filters are arbitrary. -/
theorem C97_whitespace_partial (L : Locale) (f : Filter) (b : Bool) (s : Str) (h : EvenInput s)
    (o : Order) (n : Nat) (v : List Str) (p : TParser) (v' : List Str) (hp : (TParser.init f).fromStream L o n s v = some (p, v')) :
    ∃ p', (TParser.init { f with whitespace := b }).fromStream L o n s v = some (p', v') ∧
      (∀ time, (p'.jsonDoc time).worded = (p.jsonDoc time).worded) ∧
      p'.lines.map (fun l => oneBlank l.text) = p.lines.map fun l => oneBlank l.text := by
  obtain ⟨p', k1, k2⟩ := result_worded (read_even L f b s h) o n v hp
  refine ⟨p', k1, document_worded k2, ?_⟩
  have e : ∀ p : TParser, (p.lines.map fun l => oneBlank l.text) = p.worded.lines.map (·.text) := by
    intro p
    show _ = (p.lines.map TLine.worded).map (·.text)
    rw [List.map_map]
    rfl
  rw [e, e, k2]

/-- Lines are such if they are plain: no literals except for one at the end, and the first word is not a single character, or the line is
indented well. -/
theorem C97_plain (gaps : Prop) (l : Str) (h : PlainlySpaced gaps l) : EvenlySpaced gaps l := h.even

/-- The output of a compiler, shortened. -/
def respacedSample : List Str :=
  [b! "\t.file 1 \"/app/example.c\"", b! "\t.text", b! "\t.globl\tf", b! "f:", b! "\t.loc 1 5  3", b! "\tmov\t  x0,   #1", b! "\tb\t.L2", b! "", b! ".L2:", b! "\tldr     x1,  =.LC0",
   b! "\tret", b! "process:", b! "\tbl\t f", b! ".LC0:", b! "\t.string  \"a  b\"", b! "}"]

example : EvenInput (unlines respacedSample) := by
  unfold EvenInput
  rw [inputLines_unlines _ (by decide)]
  intro l hl hb
  refine C97_plain _ l ?_
  simp only [respacedSample, List.mem_cons, List.not_mem_nil, or_false] at hl
  rcases hl with rfl | rfl | rfl | rfl | rfl | rfl | rfl | rfl | rfl | rfl | rfl | rfl | rfl | rfl | rfl | rfl
  · exact ⟨b! "\t", _, b! "file 1 ", b! "\"/app/example.c\"", rfl, by decide, by unfold Space; decide, by simp, by decide, .inr ⟨b! "/app/example.c", rfl, by decide⟩, .inl (by decide)⟩
  · exact ⟨b! "\t", _, b! "text", [], rfl, by decide, by unfold Space; decide, by simp, by decide, .inl rfl, .inl (by decide)⟩
  · exact ⟨b! "\t", _, b! "globl\tf", [], rfl, by decide, by unfold Space; decide, by simp, by decide, .inl rfl, .inl (by decide)⟩
  · exact ⟨[], _, b! ":", [], rfl, by decide, by unfold Space; decide, by simp, by decide, .inl rfl, .inl (by decide)⟩
  · exact ⟨b! "\t", _, b! "loc 1 5  3", [], rfl, by decide, by unfold Space; decide, by simp, by decide, .inl rfl, .inl (by decide)⟩
  · exact ⟨b! "\t", _, b! "ov\t  x0,   #1", [], rfl, by decide, by unfold Space; decide, by simp, by decide, .inl rfl, .inl (by decide)⟩
  · exact ⟨b! "\t", _, b! "\t.L2", [], rfl, by decide, by unfold Space; decide, by simp, by decide, .inl rfl, .inr ⟨by decide, .inl ⟨[], rfl⟩⟩⟩
  · exact absurd (by decide) hb
  · exact ⟨[], _, b! "L2:", [], rfl, by decide, by unfold Space; decide, by simp, by decide, .inl rfl, .inl (by decide)⟩
  · exact ⟨b! "\t", _, b! "dr     x1,  =.LC0", [], rfl, by decide, by unfold Space; decide, by simp, by decide, .inl rfl, .inl (by decide)⟩
  · exact ⟨b! "\t", _, b! "et", [], rfl, by decide, by unfold Space; decide, by simp, by decide, .inl rfl, .inl (by decide)⟩
  · exact ⟨[], _, b! "rocess:", [], rfl, by decide, by unfold Space; decide, fun _ => ⟨rfl, by decide⟩, by decide, .inl rfl, .inl (by decide)⟩
  · exact ⟨b! "\t", _, b! "l\t f", [], rfl, by decide, by unfold Space; decide, by simp, by decide, .inl rfl, .inl (by decide)⟩
  · exact ⟨[], _, b! "LC0:", [], rfl, by decide, by unfold Space; decide, by simp, by decide, .inl rfl, .inl (by decide)⟩
  · exact ⟨b! "\t", _, b! "string  ", b! "\"a  b\"", rfl, by decide, by unfold Space; decide, by simp, by decide, .inr ⟨b! "a  b", rfl, by decide⟩, .inl (by decide)⟩
  · exact ⟨[], _, [], [], rfl, by decide, by unfold Space; decide, by simp, by decide, .inl rfl, .inl (by decide)⟩


example : (textRun { whitespace := true, directives := true } (unlines respacedSample)).map (fun p => (p.outputText, p.lines.map fun l => (l.source.line, l.labels.map (·.name)))) =
    some (b! "f:\n" ++ b! "  mov x0, #1\n" ++ b! "  b .L2\n" ++ b! "\n" ++ b! ".L2:\n" ++ b! "  ldr x1, =.LC0\n" ++ b! "  ret\n" ++ b! "process:\n" ++ b! "  bl f\n" ++ b! ".LC0:\n" ++
      b! "  .string \"a  b\"\n" ++ b! "}\n",
      [(5, []), (5, []), (5, [b! ".L2"]), (0, []), (5, []), (5, [b! ".LC0"]), (5, []), (5, []), (5, [b! "f"]), (5, []), (5, []), (5, [])]) := by
  decide +kernel

/-- C97 is violated: the filter `whitespace` changes which file the code is from, and whether it is the user's code, if the directory and
the name of the file are given separately: the blank between them is removed, and then the directory is taken for the file.  And a branch
with a mnemonic of one letter that is indented by one blank loses the label it refers to, so that the label is not in use. -/
theorem C97_violation :
    ((∃ p, TextResult Locale.utf8 {} (unlines [b! "\t.file 1 \"/app\" \"example.c\"", b! "f:", b! "\t.loc 1 5", b! "\tret"]) p ∧
        p.lines.getLast?.map (fun l => (l.source.file.s, l.source.isUsercode)) = some (b! "/app/example.c", true)) ∧
      ∃ p, TextResult Locale.utf8 { whitespace := true } (unlines [b! "\t.file 1 \"/app\" \"example.c\"", b! "f:", b! "\t.loc 1 5", b! "\tret"]) p ∧
        p.lines.getLast?.map (fun l => (l.source.file.s, l.source.isUsercode)) = some (b! "/app", false)) ∧
    (∃ p, TextResult Locale.utf8 {} (unlines [b! ".L2:", b! " b .L2"]) p ∧ p.lines.map (fun l => (l.isUsed, l.labels.length)) = [(true, 0), (false, 1)]) ∧
      ∃ p, TextResult Locale.utf8 { whitespace := true } (unlines [b! ".L2:", b! " b .L2"]) p ∧ p.lines.map (fun l => (l.isUsed, l.labels.length)) = [(false, 0), (false, 0)] := by
  refine ⟨⟨?_, ?_⟩, ?_, ?_⟩ <;> exact textRun_exists (by decide +kernel)

end AsmParser
