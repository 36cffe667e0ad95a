/-
Property C107: empty lines in the assembly code that a compiler writes.
-/
import Verif.Proofs.CompiledGaps

namespace AsmParser

attribute [local irreducible] Re.search Re.fullMatch

/-- C107: the non-empty lines of the result are those for the program without empty lines, with the same source positions. -/
theorem C107_rows (L : Locale) (f : Filter) (hf : UsualFilter f) (xs : List CLine) (hx : ∀ x ∈ xs, x.Wf)
    (hd : f.compatmode = true → ∀ x ∈ xs, x.shows = true → ¬ StartsWithOneOf dataDirectives x.text)
    (s : Str) (hs : inked (inputLines s) = xs.map CLine.render) (p : TParser) (h : TextResult L f s p) :
    (p.lines.filter fun l => l.text ≠ []).map (fun l => (l.text, l.isLabel, if l.isLabel then none else l.shownSource)) = shownOf xs none xs ∧
    ∃ ls, p.outputText = unlines ls ∧ inked ls = (xs.filter CLine.shows).map CLine.text := by
  letI := recognizers
  have hf' : CompiledFilter f := ⟨hf.directives, hf.comments, hf.library, hf.whitespace⟩
  obtain ⟨o, n, v, v', h⟩ := h
  obtain ⟨q, h1, h2⟩ := (gaps_runs L hf' hx (fun hc x hm hl => hd hc x hm (by cases x <;> first | rfl | cases hl)) hs o n v).1 p v' h
  have hq : TextResult L f (unlines (xs.map CLine.render)) q := ⟨o, n, v, v', h1⟩
  obtain ⟨g1, g2⟩ := C102_compiled L f hf xs hx hd q hq
  have g3 : q.lines.map TLine.text = (xs.filter CLine.shows).map CLine.text := by
    have : ∀ xs all pos, (shownOf all pos xs).map (·.1) = (xs.filter CLine.shows).map CLine.text := by
      intro xs
      induction xs with
      | nil => intros; rfl
      | cons x xs ih =>
        intro all pos
        rw [shownOf, List.map_append, ih, List.filter_cons]
        split <;> simp
    rw [← this xs xs none, ← g1, List.map_map]
    rfl
  refine ⟨?_, _, outputText_unlines p, ?_⟩
  · rw [filled_rows h2, compiled_filled hf' hx hq, g1]
  · rw [filled_texts h2, inked_shown hf' hx hq, g3]

/-- C107 with the filter for unused labels: what is left is given by the rule of C103. -/
theorem C107_left (L : Locale) (f : Filter) (hf : CompiledFilter f) (xs : List CLine) (hx : ∀ x ∈ xs, x.Wf) (hd : (labelNames xs).Nodup)
    (hc : f.compatmode = true → ∀ x ∈ xs, x.isLabel = true → ¬ StartsWithOneOf dataDirectives x.text)
    (s : Str) (hs : inked (inputLines s) = xs.map CLine.render) (p : TParser) (h : TextResult L f s p) :
    ∃ x : Found, x.Reasons xs ∧
      inked (p.lines.map TLine.text) = (leftOf f.unusedLabels f.compatmode x {} xs).map CLine.text := by
  obtain ⟨o, n, v, v', h⟩ := h
  obtain ⟨q, h1, h2⟩ := (gaps_runs L hf hx hc hs o n v).1 p v' h
  have hq : TextResult L f (unlines (xs.map CLine.render)) q := ⟨o, n, v, v', h1⟩
  obtain ⟨x, g1, g2⟩ := C103_exact L f hf xs hx hd hc q hq
  exact ⟨x, g1, by rw [filled_texts h2, inked_shown hf hx hq, g2]⟩

/-- C107: a function that nothing needs disappears. -/
theorem C107_dead (L : Locale) (f : Filter) (hf : CompiledFilter f) (hu : f.unusedLabels = true) (before body after : List CLine) (a note : Str)
    (hx : ∀ x ∈ before ++ .label a note :: body ++ after, x.Wf) (hd : (labelNames (before ++ .label a note :: body ++ after)).Nodup)
    (hc : f.compatmode = true → ∀ x ∈ before ++ .label a note :: body ++ after, x.isLabel = true → ¬ StartsWithOneOf dataDirectives x.text)
    (ha : ¬ Internal a) (hn : ∀ b ∈ labelNames (.label a note :: body), ¬ Needed (before ++ .label a note :: body ++ after) b)
    (h1 : ∀ b, Needed (before ++ .label a note :: body ++ after) b → ¬ RightBehind (before ++ .label a note :: body ++ after) a b)
    (h2 : ∀ r, ¬ DataMentions (before ++ .label a note :: body ++ after) a r)
    (s : Str) (hs : inked (inputLines s) = (before ++ .label a note :: body ++ after).map CLine.render) (p : TParser) (h : TextResult L f s p) :
    ∃ xs ys : List CLine, xs.Sublist (before.filter CLine.shows) ∧ ys.Sublist (after.filter CLine.shows) ∧
      inked (p.lines.map TLine.text) = (xs ++ ys).map CLine.text := by
  obtain ⟨o, n, v, v', h⟩ := h
  obtain ⟨q, k1, k2⟩ := (gaps_runs L hf hx hc hs o n v).1 p v' h
  have hq : TextResult L f _ q := ⟨o, n, v, v', k1⟩
  obtain ⟨xs, ys, g1, g2, g3, -⟩ := C103_dead L f hf hu before body after a note hx hd hc ha hn h1 h2 q hq
  exact ⟨xs, ys, g1, g2, by rw [filled_texts k2, inked_shown hf hx hq, g3]⟩

/-- C107: an exported function stays with its code if all labels that its code and the data below it mention are exported as well, and
no label is right behind it. -/
theorem C107_alive (L : Locale) (f : Filter) (hf : CompiledFilter f) (before body after : List CLine) (a note : Str)
    (hx : ∀ x ∈ before ++ .label a note :: body ++ after, x.Wf) (hd : (labelNames (before ++ .label a note :: body ++ after)).Nodup)
    (hc : f.compatmode = true → ∀ x ∈ before ++ .label a note :: body ++ after, x.isLabel = true → ¬ StartsWithOneOf dataDirectives x.text)
    (ha : Global (before ++ .label a note :: body ++ after) a) (hr : ∀ g, ¬ RightBehind (before ++ .label a note :: body ++ after) g a)
    (hm : ∀ g ∈ labelNames (before ++ .label a note :: body ++ after), CodeMentions (before ++ .label a note :: body ++ after) g a ∨
      WeakBelow (before ++ .label a note :: body ++ after) g a ∨ DataMentions (before ++ .label a note :: body ++ after) g a →
      g = a ∨ Global (before ++ .label a note :: body ++ after) g) (hb : NoFunction body)
    (s : Str) (hs : inked (inputLines s) = (before ++ .label a note :: body ++ after).map CLine.render)
    (o : Order) (n : Nat) (v v' : List Str) (hv : a ∉ v) (p : TParser) (h : (TParser.init f).fromStream L o n s v = some (p, v')) :
    ∃ xs bs ys : List CLine, xs.Sublist (before.filter CLine.shows) ∧ ys.Sublist (after.filter CLine.shows) ∧
      bs.Sublist (body.filter CLine.shows) ∧ bs.filter (fun l => l.shows && !l.isLabel && !(f.compatmode && l.isData)) =
        body.filter (fun l => l.shows && !l.isLabel && !(f.compatmode && l.isData)) ∧
      inked (p.lines.map TLine.text) = (xs ++ .label a note :: bs ++ ys).map CLine.text := by
  obtain ⟨q, k1, k2⟩ := (gaps_runs L hf hx hc hs o n v).1 p v' h
  obtain ⟨xs, bs, ys, g1, g2, g3, g4, g5, -⟩ := C103_alive L f hf before body after a note hx hd hc ha hr hm hb o n v v' hv q k1
  exact ⟨xs, bs, ys, g1, g2, g3, g4, by rw [filled_texts k2, inked_shown hf hx ⟨o, n, v, v', k1⟩, g5]⟩

/-- C107 for the program: it ends, and prints the lines of C102 and C103 and otherwise only empty lines. -/
theorem C107_program (e : Env) (xs : List CLine) (hx : ∀ x ∈ xs, x.Wf) (hin : inked (inputLines (requestedInput e)) = xs.map CLine.render)
    (hl : e.localeOk = true) (hi : hasInput e.args) (h1 : b! "-outputtext" ∈ e.args) (h2 : b! "-directives" ∈ e.args)
    (h3 : b! "-comment_only" ∈ e.args)
    (h5 : ∀ a ∈ [b! "-binary", b! "-library_functions", b! "-whitespace"], a ∉ e.args) (hd : (labelNames xs).Nodup)
    (hc : b! "-nocompat" ∉ e.args → ∀ x ∈ xs, x.isLabel = true → ¬ StartsWithOneOf dataDirectives x.text) :
    (NoCircle xs → ∃ n r, mainProgram e n = some r) ∧
    ∀ n r, mainProgram e n = some r → r.exit = 0 ∧
      ∃ (x : Found) (ls : List Str), x.Reasons xs ∧ r.stdout = unlines ls ∧
        inked ls = (leftOf (decide (b! "-unused_labels" ∈ e.args)) (decide (b! "-nocompat" ∉ e.args)) x {} xs).map CLine.text := by
  have hf : CompiledFilter (requestedFilter e.args) :=
    ⟨by simp [requestedFilter, h2], by simp [requestedFilter, h3],
     by simpa [requestedFilter] using h5 b! "-library_functions" (by simp), by simpa [requestedFilter] using h5 b! "-whitespace" (by simp)⟩
  have hc' : (requestedFilter e.args).compatmode = true → ∀ x ∈ xs, x.isLabel = true → ¬ StartsWithOneOf dataDirectives x.text :=
    fun h => hc (by simpa [requestedFilter] using h)
  constructor
  · intro hn
    letI := recognizers
    refine program_ends e fun _ => ?_
    have hf' : UsualFilter { requestedFilter e.args with unusedLabels := false } := ⟨hf.directives, hf.comments, rfl, hf.library, hf.whitespace⟩
    obtain ⟨n, ⟨q, v'⟩, h⟩ := C41_balanced_partial e.L (requestedFilter e.args) (unlines (xs.map CLine.render)) e.order []
      (no_chain hf' hx hn)
    obtain ⟨p, hp⟩ := (gaps_runs e.L hf hx hc' hin e.order n []).2 q v' h
    exact ⟨n, _, hp⟩
  · intro n r h
    obtain ⟨h0, p, hp, k1, -⟩ := C48_text e n hl hi (h5 b! "-binary" (by simp)) r h
    rw [if_pos h1] at k1
    obtain ⟨x, g1, g2⟩ := C107_left e.L _ hf xs hx hd hc' _ hin p hp
    refine ⟨h0, x, _, g1, k1.trans (outputText_unlines p), ?_⟩
    rw [g2]
    congr 2

/-! ### A sample -/

/-- The sample of C103 with empty lines and without newline at its end. -/
def gapsCompiled : Str :=
  b! "\n\t.text\n" ++ b! "\t.globl\tf\n" ++ b! "f:\n\n" ++ b! "\tleal\t(%rdi,%rdi), %eax\n" ++ b! "\tret\n\n\n" ++ b! "g: # @g\n" ++ b! ".L2:\n" ++
    b! "\n\tjmp\t.L2\n" ++ b! "\t.globl\th\n" ++ b! "h:\n" ++ b! "\tjmp\tf\n\n" ++ b! "\t.quad\tf"

/-- The hypotheses hold for it. -/
example : inked (inputLines gapsCompiled) = usedSample.map CLine.render ∧ (∀ x ∈ usedSample, x.Wf) ∧ (labelNames usedSample).Nodup ∧
    CompiledFilter { directives := true, commentOnly := true, unusedLabels := true, compatmode := false } :=
  ⟨by decide +kernel, usedSample_wf, by decide, ⟨rfl, rfl, rfl, rfl⟩⟩

/-- The program on the sample. -/
example : mainProgram (sampleEnv [b! "-stdin", b! "-outputtext", b! "-directives", b! "-comment_only", b! "-unused_labels"] gapsCompiled) 100 =
    some ⟨b! "f:\n\n" ++ b! "        leal    (%rdi,%rdi), %eax\n" ++ b! "        ret\n\n" ++ b! "h:\n" ++ b! "        jmp     f\n\n" ++ b! "        .quad   f\n", 0, none⟩ := by
  decide +kernel

end AsmParser
