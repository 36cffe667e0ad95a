/-
C95: lines that are filtered out and have no meaning leave no trace in text mode.
-/
import Verif.Proofs.Mute
import Verif.Props.Gaps
import Verif.Props.TextJson
import Verif.Props.Remarks

namespace AsmParser

attribute [local irreducible] Re.search Re.fullMatch

theorem toAsm_anon (l : TLine) : l.anon.toAsm = l.toAsm := rfl

theorem redetermine_anon (ls : List TLine) : ∀ n, redetermineLabels n (ls.map TLine.anon) = redetermineLabels n ls := by
  induction ls with
  | nil => intro n; rfl
  | cons l ls ih =>
    intro n
    rw [List.map_cons, redetermineLabels, redetermineLabels]
    simp only [ih]
    rfl

theorem document_anon {p q : TParser} (h : p.anon = q.anon) (time : Int) : (p.jsonDoc time).uncounted = (q.jsonDoc time).uncounted := by
  have h1 : p.filter = q.filter := (congrArg TParser.filter h :)
  have h2 : p.lines.map TLine.anon = q.lines.map TLine.anon := (congrArg TParser.lines h :)
  unfold TParser.jsonDoc JsonDoc.uncounted
  have e : ∀ ls : List TLine, ls.map TLine.toAsm = (ls.map TLine.anon).map TLine.toAsm := by
    intro ls; rw [List.map_map]; rfl
  rw [h1, ← redetermine_anon p.lines, ← redetermine_anon q.lines, e p.lines, e q.lines, h2]

theorem outputText_anon {p q : TParser} (h : p.anon = q.anon) : p.outputText = q.outputText := by
  have h2 : p.lines.map TLine.anon = q.lines.map TLine.anon := (congrArg TParser.lines h :)
  have e : ∀ p : TParser, p.outputText = (p.lines.map TLine.anon).flatMap fun l => l.text ++ [10] := by
    intro p; rw [List.flatMap_map]; rfl
  rw [e, e, h2]

/-- C95: leave out of the input some lines that are only comments and whole block comments (if the filter `comment_only` is set) and
some directives that have no meaning of their own (if `directives` is set).  For all filters, every run on the longer input corresponds
to a run on the shorter one, with the same iteration orders, the same bound for the recursion and the same `visited` set before and
after, and with the same text output.  The documents written as JSON are the same as well, except for the number of lines read: the same
lines in the same order with the same references, source positions, sections and flags, and the same label definitions.  Lines with nothing
but blanks must be empty, and directives may only be left out if no line has the keyword of a CUDA function header. -/
theorem C95_mute (L : Locale) (f : Filter) (ls ls' : List Str) (h : Quieter f false ls ls') (h1 : ∀ l ∈ ls, 10 ∉ l)
    (h2 : ∀ l ∈ ls, Blanks l → l = []) (h3 : f.directives = true → NoCuda (unlines ls))
    (o : Order) (n : Nat) (v : List Str) (p : TParser) (v' : List Str) (hp : (TParser.init f).fromStream L o n (unlines ls) v = some (p, v')) :
    ∃ p', (TParser.init f).fromStream L o n (unlines ls') v = some (p', v') ∧ p'.outputText = p.outputText ∧
      ∀ time, (p'.jsonDoc time).uncounted = (p.jsonDoc time).uncounted := by
  cases hl : f.libraryFunctions with
  | false =>
    have h4 : f.directives = true → ∀ l ∈ ls, PlainHeader l := by
      intro hd l hx
      exact h3 hd l (by rw [inputLines_unlines ls h1]; exact hx)
    obtain ⟨p', k1, k2⟩ := result_anon (quieter_stream L hl h h1 h4 h2) o n v hp
    exact ⟨p', k1, outputText_anon k2, document_anon k2⟩
  | true =>
    obtain ⟨q, k1, k2⟩ := fromStream_library L f hl o n (unlines ls) v
    obtain ⟨q', k1', k2'⟩ := fromStream_library L f hl o n (unlines ls') v
    rw [k1] at hp
    simp only [Option.some.injEq, Prod.mk.injEq] at hp
    obtain ⟨rfl, rfl⟩ := hp
    have e1 : q.filter = f := result_filter ⟨o, n, v, v, k1⟩
    have e2 : q'.filter = f := result_filter ⟨o, n, v, v, k1'⟩
    refine ⟨q', k1', ?_, ?_⟩
    · unfold TParser.outputText; rw [k2, k2']
    · intro time
      unfold TParser.jsonDoc JsonDoc.uncounted
      rw [e1, e2, k2, k2']

/-- The output of a compiler, shortened. -/
def muteSample : List Str :=
  [b! "\t.file 1 \"a.c\"", b! "\t.text", b! "\t.globl\tf", b! "\t.type\tf, @function", b! "f:", b! "# the function", b! "\t.cfi_startproc", b! "\t.loc 1 5", b! "\tpushq\t%rbp",
   b! "\t.cfi_def_cfa_offset 16", b! "/* a", b! "   comment */", b! "", b! "\t.loc 1 6", b! "\tcall\tg", b! "\tret", b! "\t.cfi_endproc", b! "\t.size\tf, .-f", b! "h:", b! "\tret", b! "g:",
   b! "\t.p2align 4", b! "\tret"]

/-- The same without the lines that mean nothing. -/
def muteSample2 : List Str :=
  [b! "\t.file 1 \"a.c\"", b! "\t.text", b! "\t.globl\tf", b! "f:", b! "\t.cfi_startproc", b! "\t.loc 1 5", b! "\tpushq\t%rbp",
   b! "", b! "\t.loc 1 6", b! "\tcall\tg", b! "\tret", b! "\t.cfi_endproc", b! "h:", b! "\tret", b! "g:", b! "\tret"]

example (f : Filter) (h1 : f.commentOnly = true) (h2 : f.directives = true) : Quieter f false muteSample muteSample2 := by
  refine .line ?_
  refine .line ?_
  refine .line ?_
  refine .directive h2 (muteDirective ⟨b! "\t", _, by decide, rfl⟩ (by decide) (by decide) (by simp only [← occurs_iff]; decide)) ?_
  refine .line ?_
  refine .remark h1 (remark_sample _ ⟨_, _, rfl, by decide⟩ (by decide) (by decide) (by decide)) ?_
  refine .line ?_
  refine .line ?_
  refine .line ?_
  refine .directive h2 (muteDirective ⟨b! "\t", _, by decide, rfl⟩ (by decide) (by decide) (by simp only [← occurs_iff]; decide)) ?_
  refine .block (c := [b! "/* a", b! "   comment */"]) h1 ⟨[b! "/* a"], b! "   comment */", rfl, ⟨_, rfl, by decide⟩, by decide, by decide⟩ ?_
  refine .line ?_
  refine .line ?_
  refine .line ?_
  refine .line ?_
  refine .line ?_
  refine .directive h2 (muteDirective ⟨b! "\t", _, by decide, rfl⟩ (by decide) (by decide) (by simp only [← occurs_iff]; decide)) ?_
  refine .line ?_
  refine .line ?_
  refine .line ?_
  refine .directive h2 (muteDirective ⟨b! "\t", _, by decide, rfl⟩ (by decide) (by decide) (by simp only [← occurs_iff]; decide)) ?_
  refine .line ?_
  exact .nil

example : (∀ l ∈ muteSample, 10 ∉ l) ∧ (∀ l ∈ muteSample, Blanks l → l = []) ∧ NoCuda (unlines muteSample) := by
  refine ⟨by decide, by unfold Blanks; decide, ?_⟩
  unfold NoCuda
  simp only [← occurs_iff]
  decide +kernel

example : (textRun { commentOnly := true, directives := true, unusedLabels := true } (unlines muteSample)).map (fun p => (p.outputText, p.lines.map (·.source.line))) =
    some (b! "f:\n" ++ b! "        pushq   %rbp\n" ++ b! "\n" ++ b! "        call    g\n" ++ b! "        ret\n", [5, 5, 0, 6, 6]) := by
  decide +kernel

/-- The exceptions matter.  A line with nothing but blanks before a directive that is left out is put in front of the next line; and
a directive in the parameters of a CUDA function is shown although `directives` is set. -/
theorem C95_limits :
    ((∃ p, TextResult Locale.utf8 { directives := true } (unlines [b! "  ", b! "\t.align 4", b! "ret"]) p ∧ p.outputText = b! "ret\n") ∧
      ∃ p, TextResult Locale.utf8 { directives := true } (unlines [b! "  ", b! "ret"]) p ∧ p.outputText = b! "  ret\n") ∧
    ∃ p, TextResult Locale.utf8 { directives := true } (unlines [b! ".visible .entry f(", b! "\t.align 4", b! ")"]) p ∧
      p.outputText = b! ".visible .entry f(\n        .align 4\n)\n" := by
  refine ⟨⟨?_, ?_⟩, ?_⟩ <;> exact textRun_exists (by decide +kernel)

end AsmParser
