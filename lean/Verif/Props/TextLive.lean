/-
Property C44: views into parsed lines stay valid.
-/
import Verif.Proofs.TextLive
import Verif.Proofs.TextView
import Verif.Spec.Lifetimes
import Verif.Spec.TextSamples

namespace AsmParser

attribute [local irreducible] Re.search Re.fullMatch

theorem held_iff (p : TParser) (i : Nat) : Held p i ↔ p.has i := by
  unfold Held TParser.has
  simp only [List.mem_append]

theorem stored_library {L : Locale} {f : Filter} {s : Str} {p : TParser} (h : TextResult L f s p) (hl : f.libraryFunctions = true) :
    p.stored = [] := by
  have h1 : ((TParser.init f).readStream L s).stored = [] := by
    refine (readStream_inv L f (fun p => p.stored = []) rfl (fun _ _ h => h) ?_ s).1
    intro p hf hb h _
    have hsec : p.sec.stored = [] := by
      obtain ⟨⟨_, _, _, _, _, _, _, _, e⟩, -, -⟩ := frame_sec p
      rw [e]; exact h
    refine eol_elim L (P := fun p => p.stored = []) p hb ?_ ?_ ?_ ?_ ?_ ?_ ?_
    · intros; exact h
    · intros
      unfold TParser.maybeAddBlank
      split
      · exact h
      · split <;> exact h
    · intros
      obtain ⟨⟨_, _, _, _, _, _, _, _, e⟩, -, -⟩ := frame_pre p
      show p.pre.stored = []
      rw [e]; exact h
    · intros; exact hsec
    · intro _ _ _ h'; rw [hf, hl] at h'; exact absurd h' (by simp)
    · intro _ _ _ h'; rw [hf, hl] at h'; exact absurd h' (by simp)
    · intro _ _ _ h'; rw [hf, hl] at h'; exact absurd h' (by simp)
  obtain ⟨⟨us, ls, lines, fl, ub, e, -⟩⟩ := h.outcome
  rw [e]
  exact h1

/-- C44 for the tables of labels (label definitions, references, aliases, the enclosing function of a line): everything that they
refer to still exists when parsing has finished.  Lines that are gone never come back, so it also existed at all times in
between. -/
theorem C44_labels (L : Locale) (f : Filter) (s : Str) (p : TParser) (h : TextResult L f s p) :
    ∀ i, some i ∈ p.stored → Held p i := by
  intro i hi
  cases hl : f.libraryFunctions with
  | true =>
    rw [stored_library h hl] at hi
    exact absurd hi (by simp)
  | false => exact (held_iff p i).2 ((live_result h hl).own.stored i hi)

/-- C44 (partial): without `library_functions` no invalid access happens while parsing, and the file names of the output lines
are valid; without `comment_only` their section names are valid, too.  Missing: section names with `comment_only`, and file names
with `library_functions`, see `C44_violation_section` and `C44_violation_file`. -/
theorem C44_views_partial (L : Locale) (f : Filter) (s : Str) (p : TParser) (h : TextResult L f s p) (hl : f.libraryFunctions = false) :
    p.ub = false ∧ (∀ l ∈ p.lines, l.source.file.Valid p) ∧
    (f.commentOnly = false → ∀ l ∈ p.lines, l.sect.Valid p) := by
  have hv := live_result h hl
  refine ⟨hv.ub, fun l hm i hi => (held_iff p i).2 (hv.own.lines l hm i hi), fun hc l hm i hi => (held_iff p i).2 ?_⟩
  have hf : p.filter = f := by
    obtain ⟨⟨us, ls, lines, fl, ub, e, -⟩⟩ := h.outcome
    rw [e]
    exact (readStream_inv L f (fun _ => True) trivial (fun _ _ _ => trivial) (fun _ _ _ _ _ => trivial) s).2.1
  exact (hv.sec (by rw [hf]; exact hc)).lines l hm i hi

theorem live_valid {p : TParser} {v : View} (h : v.Valid p) (cur : Nat) : p.live cur v.own = true :=
  live_of p cur fun i hi => .inr ((held_iff p i).1 (h i hi))

/-- C44 for the output (partial): writing the JSON reads only valid views, if section names are not written or there is no
`comment_only`; writing the debug dump reads only valid views if there is no `comment_only`. -/
theorem C44_output_partial (L : Locale) (f : Filter) (s : Str) (p : TParser) (h : TextResult L f s p) :
    (f.commentOnly = false ∨ f.compatmode = true → p.outputJsonUB = false) ∧ (f.commentOnly = false → p.outputDebugJsonUB = false) := by
  have hf : p.filter = f := by
    obtain ⟨⟨us, ls, lines, fl, ub, e, -⟩⟩ := h.outcome
    rw [e]
    exact (readStream_inv L f (fun _ => True) trivial (fun _ _ _ => trivial) (fun _ _ _ _ _ => trivial) s).2.1
  cases hl : f.libraryFunctions with
  | true =>
    have h1 : p.lines = [] := by
      obtain ⟨e, -, ht⟩ := textInv L f s
      have := h.outcome.core
      rw [ht.lib hl] at this
      simpa using this
    unfold TParser.outputJsonUB TParser.outputDebugJsonUB
    rw [h1]
    exact ⟨fun _ => rfl, fun _ => rfl⟩
  | false =>
    obtain ⟨-, h2, h3⟩ := C44_views_partial L f s p h hl
    unfold TParser.outputJsonUB TParser.outputDebugJsonUB
    rw [List.any_eq_false, List.any_eq_false]
    refine ⟨fun hc l hm => ?_, fun hc l hm => ?_⟩
    · unfold TParser.lineJsonUB
      rw [live_valid (h2 l hm)]
      rcases hc with hc | hc
      · rw [live_valid (h3 hc l hm)]; simp
      · rw [hf, hc]; simp
    · unfold TParser.lineDebugUB
      rw [live_valid (h2 l hm), live_valid (h3 hc l hm)]
      simp

/-- The sample has views in the tables. -/
example : (textRun { unusedLabels := true, directives := true } sampleAsm).any
    (fun p => p.ub == false && p.stored.contains (some 10) && p.lines.any fun l => l.id == 10) = true := by decide +kernel

/-- A section name and a file name that are views. -/
example : (textRun {} b! "\t.dbg line, \"a.c\", 3\n\t.section foo\n\tret\n").any
    (fun p => p.lines.map (·.sect) == [{}, ⟨b! "foo", some 2⟩, ⟨b! "foo", some 2⟩] &&
      p.lines.map (·.source.file) == [⟨b! "a.c", some 0⟩, {}, {}]) = true := by decide +kernel

/-- C44 is violated with `comment_only`: the name of a section that is mentioned in a comment is written to the JSON after the
comment has been destroyed. -/
theorem C44_violation_section : ∃ p, TextResult Locale.utf8 { commentOnly := true, compatmode := false } b! "# .section foo\n mov eax, ebx\n" p ∧
    p.outputJsonUB = true :=
  textRun_exists (P := fun p => p.outputJsonUB = true) (by decide +kernel)

/-- C44 is violated with `library_functions`: the name of the current file is compared after its line has been destroyed. -/
theorem C44_violation_file : ∃ p, TextResult Locale.utf8 { libraryFunctions := true } b! ".d2file \"example.d\"\n .d2line 3\n ret\n" p ∧
    p.ub = true :=
  textRun_exists (P := fun p => p.ub = true) (by decide +kernel)

end AsmParser
