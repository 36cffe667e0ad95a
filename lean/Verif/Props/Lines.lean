/-
Property C67: what text mode says about each line; consequences for C35, C36 and C56.
-/
import Verif.Proofs.HeldText
import Verif.Props.TextJson
import Verif.Spec.TextSamples

namespace AsmParser

attribute [local irreducible] Re.search Re.fullMatch

/-! ### C67 -/

/-- A description leaves no choice but for the section, the source, the usage flags and the positions of the references. -/
theorem C67_unique (ts : List Seen) (d : Str → Bool) (k : Nat) (t : Seen) (l l' : TLine) (h : Describes ts d k t l) (h' : Describes ts d k t l') :
    l.text = l'.text ∧ l.isLabel = l'.isLabel ∧ l.label = l'.label ∧ l.isInternalLabel = l'.isInternalLabel ∧
    l.isAssignment = l'.isAssignment ∧ l.isData = l'.isData ∧ l.hasOpcode = l'.hasOpcode ∧ l.isDirective = l'.isDirective ∧
    l.isInlineAsm = l'.isInlineAsm ∧ l.closestParentLabel = l'.closestParentLabel ∧ l.labels.map (·.name) = l'.labels.map (·.name) := by
  have hl : l.isLabel = l'.isLabel ∧ l.label = l'.label := by
    rcases h.label with ⟨a, b⟩ | ⟨a, b, c⟩ <;> rcases h'.label with ⟨a', b'⟩ | ⟨a', b', c'⟩
    · exact ⟨a.trans a'.symm, b.unique b'⟩
    · exact (c' _ b).elim
    · exact (c _ b').elim
    · exact ⟨a.trans a'.symm, b.trans b'.symm⟩
  have ha : l.isAssignment = l'.isAssignment := by rw [Bool.eq_iff_iff, h.assignment, h'.assignment, hl.1, hl.2]
  have hd : l.isData = l'.isData := by rw [Bool.eq_iff_iff, h.data, h'.data]
  have ho : l.hasOpcode = l'.hasOpcode := by rw [Bool.eq_iff_iff, h.opcode, h'.opcode]
  refine ⟨h.text.trans h'.text.symm, hl.1, hl.2, ?_, ha, hd, ho, ?_, h.inlineAsm.trans h'.inlineAsm.symm, ?_, ?_⟩
  · rw [Bool.eq_iff_iff, h.internal, h'.internal, hl.1, hl.2]
  · rw [Bool.eq_iff_iff, h.directive, h'.directive, hl.1, hd]
  · obtain ⟨q, h1, h2⟩ := h.parent
    obtain ⟨q', h1', h2'⟩ := h'.parent
    obtain rfl := h1.unique h1'
    rw [h2, h2', ha, hl.2]
  · rw [h.refs, h'.refs, hl.1, ho, hd]

section

variable [Recognizers]

/-- C67: the lines with a text that are held when the input is read are those that are kept, in the order of the input, each
described by what its text and the lines before it say. -/
theorem C67_read (L : Locale) (f : Filter) (s : Str) : ∃ zs : List (TLine × Nat),
    zs.map (·.1) = ((heldLines L f s).filter fun l => l.text ≠ []).map TLine.bare ∧ zs.Pairwise (fun a b => a.2 < b.2) ∧
    (∀ k t, (seen f s)[k]? = some t → (t.Kept f ↔ ∃ z ∈ zs, z.2 = k)) ∧
    ∀ z ∈ zs, ∃ t, (seen f s)[z.2]? = some t ∧ Describes (seen f s) (fun _ => true) z.2 t z.1 := by
  obtain ⟨zs, h1, h2, h3, h4⟩ := readHeld L f s
  refine ⟨zs, ?_, h2, ?_, fun z hz => ?_⟩
  · rw [h1]
    show ((heldLines L f s).map TLine.bare).filter _ = _
    rw [List.filter_map]; rfl
  · intro k t ht
    rw [h3 k]
    refine ⟨fun h => ⟨t, ht, h⟩, fun ⟨t', ht', h⟩ => ?_⟩
    rw [ht] at ht'
    cases ht'
    exact h
  · obtain ⟨t, a, b⟩ := h4 z hz
    exact ⟨t, a, b.rest⟩

/-- C67: the lines of the result that have a text are lines of the input that are kept, in the order of the input, each described by
what its text and the lines before it say, with the references to labels that the input defines.  Without `unused_labels` these are
all lines that are kept, except that data may be missing if both `compatmode` and `directives` are set. -/
theorem C67_lines (L : Locale) (f : Filter) (s : Str) (p : TParser) (h : TextResult L f s p) :
    ∃ (defined : Str → Bool) (zs : List (TLine × Nat)),
    (∀ a, defined a = true ↔ ∃ t ∈ seen f s, t.Defines a) ∧
    zs.map (·.1) = p.lines.filter (fun l => l.text ≠ []) ∧ zs.Pairwise (fun a b => a.2 < b.2) ∧
    (∀ z ∈ zs, ∃ t, (seen f s)[z.2]? = some t ∧ t.Kept f ∧ Describes (seen f s) defined z.2 t z.1) ∧
    (f.unusedLabels = false → ∀ k t, (seen f s)[k]? = some t → t.Kept f → (∃ z ∈ zs, z.2 = k) ∨
      (f.compatmode = true ∧ f.directives = true ∧ ¬ t.Info ∧ StartsWithOneOf dataDirectives t.text)) := by
  obtain ⟨zs, h1, h2, h3, h4⟩ := finalHeld h
  refine ⟨_, zs, fun a => ?_, h1, h2, h3, h4⟩
  have hdef : p.labelsDefined = ((TParser.init f).readStream L s).labelsDefined := by
    obtain ⟨us, ls, lines, fl, ub, rfl, -⟩ := h.outcome.frame
    rfl
  rw [← (readGraph L f s).defs, hdef]
  show _ ↔ a ∈ ((TParser.init f).readStream L s).labelsDefined.map (·.1)
  rw [List.mem_map]
  constructor
  · intro h
    obtain ⟨n, hn⟩ := Option.isSome_iff_exists.1 h
    exact ⟨_, mem_of_lookup hn, rfl⟩
  · rintro ⟨⟨x, n⟩, h, rfl⟩
    exact lookup_isSome h

/-- A line of the result that has a text is one of the input that is kept. -/
private theorem line_kept {L : Locale} {f : Filter} {s : Str} {p : TParser} (h : TextResult L f s p) {l : TLine} (hl : l ∈ p.lines)
    (ht : l.text ≠ []) : ∃ t ∈ seen f s, l.text = t.text ∧ t.Kept f ∧ l.isInlineAsm = t.inline := by
  obtain ⟨d, zs, -, h1, -, h2, -⟩ := C67_lines L f s p h
  have : l ∈ zs.map (·.1) := by rw [h1]; exact List.mem_filter.2 ⟨hl, by simpa using ht⟩
  obtain ⟨z, hz, rfl⟩ := List.mem_map.1 this
  obtain ⟨t, h3, h4, h5⟩ := h2 z hz
  exact ⟨t, List.mem_of_getElem? h3, h5.text, h4, h5.inlineAsm⟩

/-! ### C35 in CUDA code -/

/-- C35 (partial): also in inputs with CUDA code, the only directives that stay are those of `C35_directives_partial` and those in the
header of a CUDA function, from its first line to the closing parenthesis.  Missing: see `C35_violation`. -/
theorem C35_headers_partial (L : Locale) (f : Filter) (s : Str) (p : TParser) (h : TextResult L f s p)
    (hd : f.directives = true) (l : TLine) (hl : l ∈ p.lines) (hdir : Directive l.text) :
    (∃ a, DefinesOrAssigns l.text a) ∨ StartsWithOneOf dataDirectives l.text ∨ Contains l.text b! ".inst" ∨
      ∃ t ∈ seen f s, t.text = l.text ∧ (t.params = true ∨ t.Header) := by
  have hne : l.text ≠ [] := by
    intro e
    obtain ⟨bs, r, -, e'⟩ := hdir
    rw [e] at e'
    have := congrArg List.length e'
    simp at this
  obtain ⟨t, h1, h2, ⟨-, h3⟩, -⟩ := line_kept h hl hne
  rcases h3 with h3 | h3 | h3 | ⟨h3, -⟩
  · exact .inr (.inr (.inr ⟨t, h1, h2.symm, .inl h3⟩))
  · exact .inr (.inr (.inr ⟨t, h1, h2.symm, .inr h3⟩))
  · rw [hd] at h3; exact absurd h3 (by simp)
  · rw [← h2] at h3
    by_cases g1 : StartsWithOneOf dataDirectives l.text
    · exact .inr (.inl g1)
    · by_cases g2 : Contains l.text b! ".inst"
      · exact .inr (.inr (.inl g2))
      · refine .inl (Classical.byContradiction fun g3 => h3 ?_)
        exact ⟨hdir, fun a ha => g3 ⟨a, ha⟩, g1, g2⟩

/-! ### C36 in CUDA code -/

/-- C36 (partial): also in inputs with CUDA code, with `comment_only` and without `whitespace`, an output line is no comment: before the
first CUDA function header in the sense of `OnlyComment`, after it in that of `CudaComment` (where `@` starts no comment), and so never
in the sense of both.
Missing: inline assembly in inputs with vertical tabs, form feeds or CRs, and `whitespace`, see `C36_violation`. -/
theorem C36_cuda_partial (L : Locale) (f : Filter) (s : Str) (p : TParser) (h : TextResult L f s p)
    (hc : f.commentOnly = true) (hw : f.whitespace = false) (l : TLine) (hl : l ∈ p.lines) (hne : l.text ≠ [])
    (hi : l.isInlineAsm = false ∨ (11 ∉ s ∧ 12 ∉ s ∧ 13 ∉ s)) :
    ¬ (CudaComment l.text ∧ OnlyComment l.text) ∧
    ∃ t ∈ seen f s, t.text = l.text ∧ ¬ if t.code then CudaComment l.text else OnlyComment l.text := by
  obtain ⟨t, h1, h2, h3, h4⟩ := line_kept h hl hne
  rw [h4] at hi
  have key : ¬ if t.code then CudaComment l.text else OnlyComment l.text := by
    intro hcom
    rw [h2] at hcom
    have := (kept_comment hc h1 h3.1 hi hcom).1
    rw [hw] at this
    exact absurd this (by simp)
  refine ⟨fun ⟨g1, g2⟩ => key ?_, t, h1, h2.symm, key⟩
  split
  · exact g1
  · exact g2

/-! ### C56 in text mode -/

omit [Recognizers] in
private theorem numbered_names (n : Nat) (ls : List TLine) : (redetermineLabels n ls).map (·.1) = (ls.filter (·.isLabel)).map (·.label) := by
  induction ls generalizing n with
  | nil => rfl
  | cons l ls ih =>
    unfold redetermineLabels
    cases h : l.isLabel with
    | true => rw [List.filter_cons_of_pos h, if_pos rfl, List.map_cons, List.map_cons, ih]
    | false => rw [List.filter_cons_of_neg (by rw [h]; simp), if_neg (by simp), ih]

/-- C56, end to end for text mode: if the input defines no label twice, no object in the JSON output has two members of the same
name. -/
theorem C56_text (L : Locale) (f : Filter) (s : Str) (p : TParser) (time : Int) (h : TextResult L f s p) (hs : PlainText s)
    (hd : ∀ (i j : Nat) (t u : Seen) (a : Str), i < j → (seen f s)[i]? = some t → (seen f s)[j]? = some u → t.Defines a → ¬ u.Defines a) :
    ∃ v, readJson (p.outputJson time) = some v ∧ v.unique = true := by
  have hc := result_noControl h hs
  refine C56_unique_names_partial (p.jsonDoc time) (by
    intro l hl
    simp only [TParser.jsonDoc, List.mem_map] at hl
    obtain ⟨l, hl, rfl⟩ := hl
    have := hc.lines l hl
    exact ⟨this.text, this.sect, this.file, this.refs, fun o ho => absurd ho (by simp [TLine.toAsm])⟩)
    (redetermine_cs hc.lines) ?_
  show ((redetermineLabels 1 p.lines).map (·.1)).Nodup
  rw [numbered_names]
  obtain ⟨d, zs, -, h1, h2, h3, -⟩ := C67_lines L f s p h
  have e : p.lines.filter (·.isLabel) = (p.lines.filter fun l => l.text ≠ []).filter (·.isLabel) := by
    rw [List.filter_filter]
    refine List.filter_congr fun l hl => ?_
    cases hlab : l.isLabel with
    | false => rfl
    | true =>
      obtain ⟨l0, -, g1, g2⟩ := output_line h hl
      have e1 : l.isLabel = l0.isLabel := (congrArg TLine.isLabel g1 :)
      have e2 : l.text = l0.text := (congrArg TLine.text g1 :)
      rw [e1] at hlab
      suffices l.text ≠ [] by simpa using this
      rw [e2]
      intro hnil
      rcases g2 with g2 | g2
      · have : l0.isLabel = false := (congrArg TLine.isLabel g2 :)
        rw [this] at hlab; cases hlab
      · rcases g2.label with ⟨-, c, a2⟩ | ⟨a1, -⟩
        · rw [hnil] at a2
          exact not_defines_nil _ (getLabelFromLine_defines a2)
        · rw [a1] at hlab; cases hlab
  rw [e, ← h1, List.filter_map, List.map_map]
  have h2' : (zs.filter ((fun l : TLine => l.isLabel) ∘ fun z => z.1)).Pairwise fun a b => a.2 < b.2 := h2.sublist List.filter_sublist
  refine List.pairwise_map.2 (List.Pairwise.imp_of_mem (fun {a b} ha hb hab => ?_) h2')
  obtain ⟨ha1, ha2⟩ := List.mem_filter.1 ha
  obtain ⟨hb1, hb2⟩ := List.mem_filter.1 hb
  obtain ⟨t, t1, -, t2⟩ := h3 a ha1
  obtain ⟨u, u1, -, u2⟩ := h3 b hb1
  have ha2 : a.1.isLabel = true := ha2
  have hb2 : b.1.isLabel = true := hb2
  intro heq
  have heq : a.1.label = b.1.label := heq
  have dt : t.Defines a.1.label := by
    rcases t2.label with h | h
    · exact h.2
    · rw [h.1] at ha2; cases ha2
  have du : u.Defines b.1.label := by
    rcases u2.label with h | h
    · exact h.2
    · rw [h.1] at hb2; cases hb2
  rw [← heq] at du
  exact hd _ _ t u _ hab t1 u1 dt du

end

/-- A function with inline assembly that contains an assignment, and a table. -/
def sampleMixed : Str := b! "f:\n jmp .L1 # go\n#APP\nx = 5\n nop\n#NO_APP\n.L1:\n" ++ b! "t:\n .long f, g\n .align 2\n"

/-- What is said about the lines of `sampleMixed`: flags (label, internal, assignment, data, instruction, directive, inline
assembly), label, enclosing function and references. -/
example : (textRun {} sampleMixed).map (fun p => p.lines.map fun l =>
      [l.isLabel, l.isInternalLabel, l.isAssignment, l.isData, l.hasOpcode, l.isDirective, l.isInlineAsm]) =
    some [[true, false, false, false, true, false, false], [false, false, false, false, true, false, false],
      [false, false, false, false, false, false, true], [true, false, true, false, true, false, true],
      [false, false, false, false, true, false, true], [false, false, false, false, false, false, false],
      [true, true, false, false, false, false, false], [true, false, false, false, true, false, false],
      [false, false, false, true, false, false, false], [false, false, false, false, false, true, false]] := by decide +kernel
example : (textRun {} sampleMixed).map (fun p => p.lines.map fun l => (l.label, l.closestParentLabel)) =
    some [(b! "f", []), ([], b! "f"), ([], b! "f"), (b! "x", []), ([], b! "x"), ([], b! "x"), (b! ".L1", b! "x"), (b! "t", []), ([], b! "t"),
      ([], b! "t")] := by decide +kernel
example : (textRun {} sampleMixed).map (fun p => p.lines.map fun l => l.labels.map (·.name)) =
    some [[], [b! ".L1"], [], [], [], [], [], [], [b! "f"], []] := by decide +kernel

/-- The hypotheses of `C56_text` hold for a function of one instruction. -/
example : PlainText b! "f:\n ret\n" ∧ (∀ (i j : Nat) (t u : Seen) (a : Str), i < j → (seen {} b! "f:\n ret\n")[i]? = some t →
    (seen {} b! "f:\n ret\n")[j]? = some u → t.Defines a → ¬ u.Defines a) := by
  refine ⟨by unfold PlainText; decide +kernel, fun i j t u a hij _ hu _ h => ?_⟩
  rw [show seen {} b! "f:\n ret\n" = [{ text := b! "f:" }, { text := b! " ret" }] by decide +kernel] at hu
  match j, hij, hu with
  | 1, _, hu =>
    cases hu
    obtain ⟨x, c, e⟩ := (label_of_line _ _).2 h.2.2
    rw [show getLabelFromLine b! " ret" = none by decide +kernel] at e
    cases e
  | j + 2, _, hu => simp at hu

/-- Comments in CUDA code, where `@` starts none. -/
example : (textRun { commentOnly := true } b! "@ a\n.func f(\n// b\n)\n;; c\n@p bra b;\n# d\n").map (fun p => (p.outputText, p.lines.map TLine.isInlineAsm)) =
    some (b! ".func f(\n)\n@p bra b;\n", [false, false, false]) := by decide +kernel

/-- With the filter `directives`, a directive is dropped in the body of a CUDA function but not in its header. -/
example : (textRun { directives := true } b! ".func (.param .b32 r) f(\n.param .b32 a\n)\n{\n.reg .b32 x;\n ret;\n}\n").map (·.outputText) =
    some b! ".func (.param .b32 r) f(\n.param .b32 a\n)\n{\n ret;\n}\n" := by decide +kernel

end AsmParser
