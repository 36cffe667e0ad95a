/-
Property C106: the JSON document for the assembly code that a compiler writes, with the filter for white space.
-/
import Verif.Proofs.CompiledTidy
import Verif.Props.CompiledLeftJson

namespace AsmParser

attribute [local irreducible] Re.search Re.fullMatch

/-- Directives, comments and white space are filtered, perhaps unused labels, and nothing else. -/
structure TidyFilter (f : Filter) : Prop where
  directives : f.directives = true
  comments : f.commentOnly = true
  library : f.libraryFunctions = false
  whitespace : f.whitespace = true

/-- The run without the filter for white space. -/
theorem tidy_run (L : Locale) (hL : L.Ascii) (f : Filter) (hf : TidyFilter f) (xs : List CLine) (hx : ∀ x ∈ xs, x.Wf)
    (ha : ∀ x ∈ xs, x.Apart) (p : TParser) (h : TextResult L f (unlines (xs.map CLine.render)) p) :
    ∃ (p0 : TParser) (g : Str → Str), TextResult L { f with whitespace := false } (unlines (xs.map CLine.render)) p0 ∧ (∀ t, Tidied t (g t)) ∧
      p.worded = p0.worded ∧ p.lines.map TLine.text = p0.lines.map (fun l => g l.text) ∧
      ∀ l ∈ p.lines, l.labels = if l.isLabel = false ∧ (l.hasOpcode = true ∨ l.isData = true) then
        (referencesIn l.text).filter (fun r => (labelNames xs).contains r.name) else [] := by
  letI := recognizers
  have hf0 : CompiledFilter { f with whitespace := false } := ⟨hf.directives, hf.comments, hf.library, rfl⟩
  have hff : { ({ f with whitespace := false } : Filter) with whitespace := true } = f := by
    have := hf.whitespace
    cases f
    simp_all
  have hsame := plain_same xs (fun x hm => (hx x hm).usual) ha
  have hn1 : ∀ l ∈ xs.map CLine.render, 10 ∉ l := fun l hl => by obtain ⟨x, hm, rfl⟩ := List.mem_map.1 hl; exact (hx x hm).usual.noNewline
  have hn2 : ∀ l ∈ xs.map CLine.plainRender, 10 ∉ l := fun l hl => by
    obtain ⟨x, hm, rfl⟩ := List.mem_map.1 hl; exact plainRender_line (hx x hm).usual
  have heven := plain_even (fun x hm => (hx x hm).usual) ha
  -- the two runs
  have h' := (C77_comments_partial L f _ _ p hf.comments hsame hn1 hn2).1 h
  obtain ⟨o, n, v, v', hp⟩ := h'
  have hread := read_even L { f with whitespace := false } true _ heven
  rw [hff] at hread
  obtain ⟨p0, k0, k1⟩ := result_worded hread.symm o n v hp
  obtain ⟨p', k2, -, g, k3, k4⟩ := C97_exact_partial L { f with whitespace := false } rfl _ heven o n v p0 v' k0
  rw [hff, hp] at k2
  cases k2
  refine ⟨p0, g, (C77_comments_partial L { f with whitespace := false } _ _ p0 hf.comments hsame hn1 hn2).2 ⟨o, n, v, v', k0⟩, k3, k1.symm, k4, ?_⟩
  -- the references
  obtain ⟨defined, d1, d2⟩ := C62_columns L hL f _ p ⟨o, n, v, v', hp⟩
  obtain ⟨ys, hseen, -, sub, same, -⟩ := compiled_seen hf0 hx
  have hy : ∀ y ∈ ys, y.Wf := fun y hm => hx y (sub.subset hm)
  have hD : ∀ a, defined a = (labelNames xs).contains a := by
    intro a
    have e1 := (readGraph L f (unlines (xs.map CLine.plainRender))).defs a
    have e2 := (readGraph L { f with whitespace := false } (unlines (xs.map CLine.render))).defs a
    have e3 : ((TParser.init f).readStream L (unlines (xs.map CLine.plainRender))).graph.defs =
        ((TParser.init { f with whitespace := false }).readStream L (unlines (xs.map CLine.render))).graph.defs := by
      rw [readStream_same L (f := { f with whitespace := false }) hf.comments hsame hn1 hn2]
      exact (congrArg TParser.labelsDefined hread.symm :)
    rw [← contains_directives same, Bool.eq_iff_iff, d1, ← e1, e3, e2, hseen, List.contains_iff_mem]
    exact labelNames_seen hy
  intro l hl
  rw [d2 l hl]
  simp only [hD]

/-- The run ends. -/
theorem tidy_ends (L : Locale) (f : Filter) (hf : TidyFilter f) (xs : List CLine) (hx : ∀ x ∈ xs, x.Wf) (ha : ∀ x ∈ xs, x.Apart) (hn : NoCircle xs)
    (o : Order) (v : List Str) : ∃ n r, (TParser.init f).fromStream L o n (unlines (xs.map CLine.render)) v = some r := by
  letI := recognizers
  have hff : { ({ f with whitespace := false } : Filter) with whitespace := true } = f := by
    have := hf.whitespace
    cases f
    simp_all
  have hsame := plain_same xs (fun x hm => (hx x hm).usual) ha
  have hn1 : ∀ l ∈ xs.map CLine.render, 10 ∉ l := fun l hl => by obtain ⟨x, hm, rfl⟩ := List.mem_map.1 hl; exact (hx x hm).usual.noNewline
  have hn2 : ∀ l ∈ xs.map CLine.plainRender, 10 ∉ l := fun l hl => by
    obtain ⟨x, hm, rfl⟩ := List.mem_map.1 hl; exact plainRender_line (hx x hm).usual
  have hread := read_even L { f with whitespace := false } true _ (plain_even (fun x hm => (hx x hm).usual) ha)
  rw [hff, ← readStream_same L (f := f) hf.comments hsame hn1 hn2,
    ← readStream_same L (f := { f with whitespace := false }) hf.comments hsame hn1 hn2] at hread
  have hf' : UsualFilter { f with whitespace := false, unusedLabels := false } := ⟨hf.directives, hf.comments, rfl, hf.library, rfl⟩
  have hchain := no_chain hf' hx hn
  obtain ⟨n, r, hr⟩ := C41_balanced_partial L { f with whitespace := false } (unlines (xs.map CLine.render)) o v hchain
  obtain ⟨p, v'⟩ := r
  obtain ⟨r', k1, -⟩ := result_worded hread o n v hr
  exact ⟨n, _, k1⟩

/-- C106: the JSON document for the assembly code that a compiler writes, exactly, with the filter for white space, and perhaps that for
unused labels: it is the document of C105, with the text of every line tidied (C25, C26) and the columns of the references in this text. -/
theorem C106_document (L : Locale) (hL : L.Ascii) (f : Filter) (hf : TidyFilter f) (xs : List CLine) (hx : ∀ x ∈ xs, x.Wf)
    (ht : ∀ x ∈ xs, x.Tidy) (ha : ∀ x ∈ xs, x.Apart) (hd : (labelNames xs).Nodup)
    (hc : f.compatmode = true → ∀ x ∈ xs, x.isLabel = true → ¬ StartsWithOneOf dataDirectives x.text)
    (hs : PlainText (unlines (xs.map CLine.render))) (p : TParser) (time : Int)
    (h : TextResult L f (unlines (xs.map CLine.render)) p) :
    ∃ (x : Found) (g : Str → Str), x.Reasons xs ∧ (∀ t, Tidied t (g t)) ∧ readJson (p.outputJson time) = some (tidyJson g f time x xs) := by
  rw [C20_text L f _ p time h hs]
  obtain ⟨p0, g, k1, k2, k3, k4, k5⟩ := tidy_run L hL f hf xs hx ha p h
  have hf0 : CompiledFilter { f with whitespace := false } := ⟨hf.directives, hf.comments, hf.library, rfl⟩
  obtain ⟨x, g1, g2, g3, g4, g5⟩ := compiled_marked L hL _ hf0 xs hx ht hd hc p0 k1
  refine ⟨x, g, g1, k2, ?_⟩
  have hw : p.lines.map TLine.worded = p0.lines.map TLine.worded := (congrArg TParser.lines k3 :)
  have hlen : p.lines.length = p0.lines.length := by simpa only [List.length_map] using congrArg List.length hw
  have htot : p.totalLines = p0.totalLines := (congrArg TParser.totalLines k3 :)
  have hnum : numberedLabels 1 p.lines = numberedLabels 1 p0.lines := by
    rw [← redetermine_eq, ← redetermine_eq, ← redetermine_worded, hw, redetermine_worded]
  have e1 : p.lines.map (lineJson f.compatmode (!f.dontMaskFilenames) ∘ TLine.toAsm) = rowsTidy g f xs x {} none [] xs := by
    have r := retext_lines g f xs p0.lines p.lines hw k4 k5
    have m := congrArg (List.map (retext g xs)) g2
    rw [List.map_map, rowsGen_map] at m
    have e : (fun a b c d => retext g xs (rowMarked { f with whitespace := false } xs a b c d)) = rowTidy g f xs := by
      funext a b c d
      exact retext_row g f xs a b c d
    rw [e, rowsGen_space] at m
    rw [rowsTidy_gen]
    exact r.trans m
  have e2 : ((numberedLabels 1 p.lines).map fun d : Str × Nat => (d.1, JVal.num ((d.2 : Nat) : Int))) =
      labelsJson 1 (leftOf f.unusedLabels f.compatmode x {} xs) := by rw [hnum]; exact g3
  have e3 : p.lines.length = (leftOf f.unusedLabels f.compatmode x {} xs).length := hlen.trans g4
  unfold documentJson tidyJson
  rw [List.map_map, htot, g5, e3, e1, e2]
  rfl

/-- C106 for the text output: what is left, tidied. -/
theorem C106_text (L : Locale) (hL : L.Ascii) (f : Filter) (hf : TidyFilter f) (xs : List CLine) (hx : ∀ x ∈ xs, x.Wf)
    (ha : ∀ x ∈ xs, x.Apart) (hd : (labelNames xs).Nodup)
    (hc : f.compatmode = true → ∀ x ∈ xs, x.isLabel = true → ¬ StartsWithOneOf dataDirectives x.text) (p : TParser)
    (h : TextResult L f (unlines (xs.map CLine.render)) p) :
    ∃ (x : Found) (g : Str → Str), x.Reasons xs ∧ (∀ t, Tidied t (g t)) ∧
      p.outputText = unlines ((leftOf f.unusedLabels f.compatmode x {} xs).map fun y => g y.text) := by
  obtain ⟨p0, g, k1, k2, -, k4, -⟩ := tidy_run L hL f hf xs hx ha p h
  obtain ⟨x, g1, g2⟩ := C103_exact L { f with whitespace := false } ⟨hf.directives, hf.comments, hf.library, rfl⟩ xs hx hd hc p0 k1
  refine ⟨x, g, g1, k2, ?_⟩
  have := congrArg (List.map g) g2
  rw [List.map_map, List.map_map] at this
  rw [outputText_unlines, k4]
  exact congrArg unlines this

/-- C106 for the program: with the options `-directives`, `-comment_only`, `-whitespace` and perhaps `-unused_labels` it prints this document
(or this text, with `-outputtext`), if it ends, and it does unless there is a circle as in C102. -/
theorem C106_program (e : Env) (hL : e.L.Ascii) (xs : List CLine) (hx : ∀ x ∈ xs, x.Wf) (ht : ∀ x ∈ xs, x.Tidy) (ha : ∀ x ∈ xs, x.Apart)
    (hin : requestedInput e = unlines (xs.map CLine.render)) (hs : PlainText (requestedInput e))
    (hl : e.localeOk = true) (hi : hasInput e.args) (h2 : b! "-directives" ∈ e.args) (h3 : b! "-comment_only" ∈ e.args)
    (h5 : b! "-whitespace" ∈ e.args) (h4 : ∀ a ∈ [b! "-binary", b! "-library_functions"], a ∉ e.args)
    (hd : (labelNames xs).Nodup)
    (hc : b! "-nocompat" ∉ e.args → ∀ x ∈ xs, x.isLabel = true → ¬ StartsWithOneOf dataDirectives x.text) :
    (NoCircle xs → ∃ n r, mainProgram e n = some r) ∧
    ∀ n r, mainProgram e n = some r → r.exit = 0 ∧
      ∃ (x : Found) (g : Str → Str), x.Reasons xs ∧ (∀ t, Tidied t (g t)) ∧
        (b! "-outputtext" ∉ e.args → readJson r.stdout = some (tidyJson g (requestedFilter e.args) e.time x xs)) ∧
        (b! "-outputtext" ∈ e.args → r.stdout = unlines ((leftOf (requestedFilter e.args).unusedLabels (requestedFilter e.args).compatmode x {} xs).map fun y => g y.text)) := by
  have hf : TidyFilter (requestedFilter e.args) :=
    ⟨by simp [requestedFilter, h2], by simp [requestedFilter, h3],
     by simpa [requestedFilter] using h4 b! "-library_functions" (by simp), by simp [requestedFilter, h5]⟩
  have hb := h4 b! "-binary" (by simp)
  constructor
  · intro hn
    refine program_ends e fun _ => ?_
    rw [hin]
    exact tidy_ends e.L _ hf xs hx ha hn e.order []
  · intro n r h
    obtain ⟨h0, p, hp, k1, -⟩ := C48_text e n hl hi hb r h
    rw [hin] at hp hs
    have hc' : (requestedFilter e.args).compatmode = true → ∀ x ∈ xs, x.isLabel = true → ¬ StartsWithOneOf dataDirectives x.text :=
      fun hc' => hc (by simpa [requestedFilter] using hc')
    by_cases ho : b! "-outputtext" ∈ e.args
    · rw [if_pos ho] at k1
      obtain ⟨x, g, g1, g2, g3⟩ := C106_text e.L hL _ hf xs hx ha hd hc' p hp
      exact ⟨h0, x, g, g1, g2, fun hn => absurd ho hn, fun _ => by rw [k1, g3]⟩
    · rw [if_neg ho] at k1
      obtain ⟨x, g, g1, g2, g3⟩ := C106_document e.L hL _ hf xs hx ht ha hd hc' hs p e.time hp
      exact ⟨h0, x, g, g1, g2, fun _ => by rw [k1]; exact g3, fun hn => absurd hn ho⟩

/-! ### A sample -/

/-- The sample of C103 between a comment and a string. -/
def tidySample : List CLine := .comment b! "  " b! "#" b! " a  \"b\"  c" :: usedSample ++ [.data b! ".string" b! "\t" b! "\"a  b\""]

theorem tidySample_wf : ∀ x ∈ tidySample, x.Wf := by
  intro x hx
  simp only [tidySample, List.cons_append, List.mem_cons, List.mem_append, List.not_mem_nil, or_false] at hx
  rcases hx with rfl | hx | rfl
  · exact ⟨⟨by decide, by decide⟩, by decide +kernel, by decide +kernel, by decide +kernel, by decide +kernel⟩
  · exact usedSample_wf x hx
  · exact ⟨⟨⟨by decide, by decide, by decide, by decide⟩, by decide⟩, by decide +kernel, by decide +kernel, by decide +kernel, by decide +kernel⟩

theorem tidySample_apart : ∀ x ∈ tidySample, x.Apart := by
  have plain : ∀ (bs : Str) (c : Byte) (r : Str), Blanks bs → ¬ Space c → ¬ b! "proc" <+: c :: r → c! '"' ∉ c :: r → (∀ d ∈ r.head?, ¬ Blank d) →
      PlainlySpaced False (bs ++ c :: r) := fun bs c r h1 h2 h3 h4 h5 =>
    ⟨bs, c, r, [], by simp, h1, h2, fun h => absurd (by simpa using h) h3, h4, .inl rfl, .inl h5⟩
  unfold tidySample usedSample usedBefore usedBody usedAfter
  simp only [List.cons_append, List.nil_append, List.forall_mem_cons]
  refine ⟨?_, ?_, ?_, ?_, ?_, ?_, ?_, ?_, ?_, ?_, ?_, ?_, ?_, ?_, fun x hx => by cases hx⟩
  · exact remark_sample _ ⟨_, _, rfl, by decide⟩ (by decide +kernel) (by decide) (by decide +kernel)
  · exact plain b! "\t" _ b! "text" (by decide) (by unfold Space; decide) (by decide) (by decide) (by decide)
  · exact plain b! "\t" _ b! "globl\tf" (by decide) (by unfold Space; decide) (by decide) (by decide) (by decide)
  · exact plain [] c! 'f' b! ":" (by decide) (by unfold Space; decide) (by decide) (by decide) (by decide)
  · exact plain b! "\t" c! 'l' b! "eal\t(%rdi,%rdi), %eax" (by decide) (by unfold Space; decide) (by decide) (by decide) (by decide)
  · exact plain b! "\t" c! 'r' b! "et" (by decide) (by unfold Space; decide) (by decide) (by decide) (by decide)
  · exact plain [] c! 'g' b! ": # @g" (by decide) (by unfold Space; decide) (by decide) (by decide) (by decide)
  · exact plain [] c! '.' b! "L2:" (by decide) (by unfold Space; decide) (by decide) (by decide) (by decide)
  · exact plain b! "\t" c! 'j' b! "mp\t.L2" (by decide) (by unfold Space; decide) (by decide) (by decide) (by decide)
  · exact plain b! "\t" c! '.' b! "globl\th" (by decide) (by unfold Space; decide) (by decide) (by decide) (by decide)
  · exact plain [] c! 'h' b! ":" (by decide) (by unfold Space; decide) (by decide) (by decide) (by decide)
  · exact plain b! "\t" c! 'j' b! "mp\tf" (by decide) (by unfold Space; decide) (by decide) (by decide) (by decide)
  · exact plain b! "\t" c! '.' b! "quad\tf" (by decide) (by unfold Space; decide) (by decide) (by decide) (by decide)
  · exact ⟨b! "\t", c! '.', b! "string\t", b! "\"a  b\"", rfl, by decide, by unfold Space; decide, fun h => absurd h (by decide), by decide,
      .inr ⟨b! "a  b", rfl, by decide⟩, .inl (by decide)⟩

/-- The other hypotheses hold for the sample. -/
example : (∀ x ∈ tidySample, x.Tidy) ∧ (labelNames tidySample).Nodup ∧
    PlainText (unlines (tidySample.map CLine.render)) ∧
    TidyFilter { directives := true, commentOnly := true, unusedLabels := true, whitespace := true, compatmode := false } := by
  refine ⟨?_, by decide, by unfold PlainText; decide +kernel, ⟨rfl, rfl, rfl, rfl⟩⟩
  intro x hx
  simp only [tidySample, List.cons_append, List.mem_cons, List.mem_append, List.not_mem_nil, or_false] at hx
  rcases hx with rfl | hx | rfl
  · trivial
  · exact usedSample_tidy x hx
  · trivial

/-- What is shown of the sample, and the columns of the references to `f`. -/
example : ∃ p, TextResult Locale.utf8 { directives := true, commentOnly := true, unusedLabels := true, whitespace := true, compatmode := false }
      (unlines (tidySample.map CLine.render)) p ∧
    p.outputText = b! "f:\n  leal (%rdi,%rdi), %eax\n  ret\n" ++ b! "h:\n  jmp f\n  .quad f\n  .string \"a  b\"\n" ∧
    p.lines.flatMap (fun l => l.labels) = [⟨b! "f", 7, 8⟩, ⟨b! "f", 9, 10⟩] :=
  textRun_exists (by decide +kernel)

end AsmParser
