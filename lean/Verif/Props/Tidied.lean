/-
C25, C26, C97: the filter `whitespace`, exactly.
-/
import Verif.Proofs.Tidied
import Verif.Proofs.Squashed
import Verif.Props.Respaced

namespace AsmParser

attribute [local irreducible] Re.search Re.fullMatch

/-! ### C25, C26 -/

/-- C25, exactly: what is left of a line without string literals. -/
theorem C25_exact (s : Str) : squashHorizontalWhitespace s true = tidied s := squash_tidied s

/-- C26, exactly: what is left of a line. -/
theorem C26_exact (s : Str) (b : Bool) (v : Str) : squashHorizontalWhitespaceWithQuotes s b = v ↔ Tidied s v := by
  constructor
  · rintro rfl; exact quotes_tidied s b
  · intro h
    induction h generalizing b with
    | none h => rw [squashQuotes_none b h, squash_tidied]
    | cons h _ ih => rw [squashQuotes_first b h, squash_tidied, ih true]

example : tidied b! "   movl \t %eax,  %ebx " = b! "  movl %eax, %ebx " ∧ tidied b! " mov  a" = b! " mov a" ∧ tidied b! "\tmov" = b! " mov" ∧
    tidied b! " b  loop  x" = b! " bloop x" ∧ tidied b! "  b  loop" = b! "  b loop" ∧ tidied b! " \t" = [] := by decide

example : Tidied b! "  .string   \"a   b\"   # x   y" b! "  .string \"a   b\"  # x y" :=
  (C26_exact _ true _).1 (by decide +kernel)

/-! ### C97 -/

/-- C97 with the exact texts, for inputs in which squashing the blanks of a line keeps its words apart: the lines of the run with the filter
are those of the run without it, in the same order, each with its text tidied (so literals are copied, indentation is reduced to at most
two blanks and other runs of blanks to one); the documents are otherwise the same, as `C97_whitespace_partial` says. -/
theorem C97_exact_partial (L : Locale) (f : Filter) (hf : f.whitespace = false) (s : Str) (h : EvenInput s)
    (o : Order) (n : Nat) (v : List Str) (p : TParser) (v' : List Str) (hp : (TParser.init f).fromStream L o n s v = some (p, v')) :
    ∃ p', (TParser.init { f with whitespace := true }).fromStream L o n s v = some (p', v') ∧
      (∀ time, (p'.jsonDoc time).worded = (p.jsonDoc time).worded) ∧
      ∃ g : Str → Str, (∀ t, Tidied t (g t)) ∧ p'.lines.map TLine.text = p.lines.map fun l => g l.text := by
  letI := recognizers
  have e : ((TParser.init { f with whitespace := true }).readStream L s).lines.map TLine.text =
      ((TParser.init f).readStream L s).lines.map fun l => squashed l.text := by
    have t1 := (readTags L f s).2.1
    have t2 := (readTags L { f with whitespace := true } s).2.1
    have k := (read_squashed L hf (inputLines s) (inputLines_noNewline s) (fun l hl hn hb => ⟨l, hl, hn, hb⟩) h).2.2.2
    unfold scan at t1 t2
    rw [t2, k, ← t1, List.map_map]
    rfl
  obtain ⟨p', k1, k2, k3⟩ := result_squashed (read_even L f true s h) squashed e o n v hp
  exact ⟨p', k1, document_worded k2, squashed, fun t => quotes_tidied t true, k3⟩

/-- The text output with the filter is the text output without it, tidied line by line. -/
theorem C97_output_partial (L : Locale) (f : Filter) (hf : f.whitespace = false) (s : Str) (h : EvenInput s)
    (p : TParser) (hp : TextResult L f s p) :
    ∃ p', TextResult L { f with whitespace := true } s p' ∧ ∃ ls vs : List Str, p.outputText = unlines ls ∧ p'.outputText = unlines vs ∧
      vs.length = ls.length ∧ ∀ i (h1 : i < ls.length) (h2 : i < vs.length), Tidied ls[i] vs[i] := by
  obtain ⟨o, n, v, v', hp⟩ := hp
  obtain ⟨p', k1, -, g, k2, k3⟩ := C97_exact_partial L f hf s h o n v p v' hp
  refine ⟨p', ⟨o, n, v, v', k1⟩, p.lines.map TLine.text, p'.lines.map TLine.text, outputText_unlines p, outputText_unlines p', ?_, ?_⟩
  · rw [k3, List.length_map, List.length_map]
  · intro i h1 h2
    have : (p'.lines.map TLine.text)[i] = g (p.lines.map TLine.text)[i] := by
      simp only [k3, List.getElem_map]
    rw [this]
    exact k2 _

/-- The two runs for the sample of `C97_whitespace_partial`, whose lines are all spaced evenly: the literal keeps its blanks. -/
example : (∃ p, TextResult Locale.utf8 { directives := true } (unlines respacedSample) p ∧
      p.lines.map TLine.text = [b! "f:", b! "        mov       x0,   #1", b! "        b       .L2", b! "", b! ".L2:",
        b! "        ldr     x1,  =.LC0", b! "        ret", b! "process:", b! "        bl       f", b! ".LC0:", b! "        .string  \"a  b\"", b! "}"]) ∧
    ∃ p, TextResult Locale.utf8 { directives := true, whitespace := true } (unlines respacedSample) p ∧
      p.lines.map TLine.text = [b! "f:", b! "  mov x0, #1", b! "  b .L2", b! "", b! ".L2:",
        b! "  ldr x1, =.LC0", b! "  ret", b! "process:", b! "  bl f", b! ".LC0:", b! "  .string \"a  b\"", b! "}"] := by
  constructor <;> exact textRun_exists (by decide +kernel)

end AsmParser
