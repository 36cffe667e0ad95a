/-
Properties C45, C60 and C61: source files, source positions and sections of the lines of text mode.
-/
import Verif.Proofs.SourceRead
import Verif.Spec.TextSamples

namespace AsmParser

attribute [local irreducible] Re.search Re.fullMatch

/-! ### The specification determines its results -/

/-- There is at most one position after given lines, … -/
theorem C60_position_unique (ts : List Seen) (q q' : Option Pos) (h : PositionAt ts q) (h' : PositionAt ts q') : q = q' :=
  h.unique h'

/-- … at most one way to show it, … -/
theorem C60_shown_unique (ts : List Seen) (q : Option Pos) (r r' : Option (Str × Int × Int)) (h : ShownAs ts q r)
    (h' : ShownAs ts q r') : r = r' := by
  cases h <;> cases h' <;> first
    | rfl
    | (exfalso; omega)
    | (rename_i h1 _ _ h2 _; rw [FileNamed.unique h1 h2])
    | (rename_i h1 _ h2; exact absurd h1 (h2 _))
    | (rename_i h2 _ h1 _; exact absurd h1 (h2 _))

/-- … and at most one section. -/
theorem C61_section_unique (ts : List Seen) (a b : Str) (h : SectionAt ts a) (h' : SectionAt ts b) : a = b := h.unique h'

/-! ### C45 -/

/-- The result of the whole pass: every line is an earlier line with its file looked up. -/
theorem line_finished {L : Locale} {f : Filter} {s : Str} {p : TParser} (h : TextResult L f s p) :
    ∀ l ∈ p.lines, ∃ l0, l = p.finishKept l0 := by
  obtain ⟨o, n, v, v', h⟩ := h
  obtain ⟨us, ls, lines, fl, ub, rfl, h1, sub, h2, h3, -⟩ := outcome h
  intro l hl
  have hl : l ∈ lines := hl
  rw [h3] at hl
  obtain ⟨l0, -, rfl⟩ := List.mem_map.1 hl
  exact ⟨l0, rfl⟩

/-- C45 (partial): an output line with a file index has the name that the last `.file` directive for this index gives, wherever
the directive is.  In particular the index is defined.  Missing: directives whose text contains one of the words that end a block
are not recognized (`Ends` in `FileNamed`), see `C45_violation`. -/
theorem C45_files_partial [Recognizers] (L : Locale) (f : Filter) (s : Str) (p : TParser) (h : TextResult L f s p) :
    ∀ l ∈ p.lines, l.source.fileIdx ≠ 0 → FileNamed (seen f s) l.source.fileIdx l.source.file.s := by
  intro l hl hi
  obtain ⟨hs, -⟩ := finalTags h
  obtain ⟨l0, rfl⟩ := line_finished h l hl
  have e := finishKept_source p l0
  split at e
  · cases hf : p.files.lookup l0.source.fileIdx with
    | some name =>
      rw [hf] at e
      rw [e]
      exact (hs.files _ _).1 hf
    | none =>
      rw [hf] at e
      rw [e] at hi
      exact absurd rfl hi
  · rename_i h0
    rw [e] at hi
    exact absurd hi h0

/-- A `.file` directive is ignored if the file name contains `.data`, `.text` or the like: the line has no source although its
index is defined. -/
theorem C45_violation :
    (∃ t ∈ seen {} b! ".file 1 \"/x.data/foo.c\"\n.loc 1 5\n ret\n", FileDirective t.text 1 b! "/x.data/foo.c") ∧
    (∃ p, TextResult Locale.utf8 {} b! ".file 1 \"/x.data/foo.c\"\n.loc 1 5\n ret\n" p ∧
      p.lines.map TLine.shownSource = [none, none, none]) ∧
    ∃ p, TextResult Locale.utf8 {} b! ".file 1 \"/x/foo.c\"\n.loc 1 5\n ret\n" p ∧
      p.lines.map TLine.shownSource = [none, some (b! "/x/foo.c", 5, 0), some (b! "/x/foo.c", 5, 0)] := by
  refine ⟨⟨{ text := b! ".file 1 \"/x.data/foo.c\"" }, by decide +kernel, ?_⟩, textRun_exists (by decide +kernel),
    textRun_exists (by decide +kernel)⟩
  refine ⟨b! "1", b! " ", b! "\"/x.data/foo.c\"", b! "/x.data/foo.c", [], ⟨by decide, ?_, ?_⟩, by decide, by decide, ?_,
    ⟨by decide, by decide, rfl⟩, ⟨[], b! " ", ?_, by decide, ?_, by decide⟩, Or.inr ⟨?_, rfl⟩⟩
  · intro c hc
    have : c = 49 := by simpa using hc
    subst this; unfold Digit; decide
  · intro c hc
    have : c = 32 := by simpa using hc.symm
    subst this; unfold Digit; decide
  · intro c hc
    have : c = 32 := by simpa using hc
    subst this; decide
  · intro c hc; simp at hc
  · intro c hc
    have : c = 32 := by simpa using hc
    subst this; decide
  · intro bs' q' b r' h1 _ _ h
    cases bs' with
    | nil => exact h1 rfl
    | cons => simp at h

/-! ### C60 -/

/-- C60 (partial): every nonempty output line comes from a line of the input, in the order of the input, and shows the last
position set up to this line, with the file name found in the whole input.  For labels the position may instead be the one after a
later `.loc` or `.d2line`, but before the next output line that is no label; and it is, if there are only internal labels without
blank lines between the label and such a directive.  What counts as setting a position is what
`SetsPos` says.  Missing: `.loc` with file index 0 is ignored, and any line that contains `.text`, `.data`, `.section` or
`.cfi_endproc` ends the position, see `C60_violation`. -/
theorem C60_positions_partial [Recognizers] (L : Locale) (f : Filter) (s : Str) (p : TParser) (h : TextResult L f s p) :
    ∃ zs : List (TLine × Nat × Nat), zs.map (·.1) = p.lines.filter (fun l => l.text ≠ []) ∧
      zs.Pairwise (fun a b => a.2.1 < b.2.1 ∧ (b.1.isLabel = false → a.2.2 ≤ b.2.1)) ∧
      ∀ l k m, (l, k, m) ∈ zs →
        (seen f s)[k]?.map Seen.text = some l.text ∧ k ≤ m ∧ m < (seen f s).length ∧ (l.isLabel = false → m = k) ∧
        (m ≠ k → ∃ t, (seen f s)[m]? = some t ∧ MovesLabels t.text) ∧
        (∀ j t, l.isLabel = true → k < j → (seen f s)[j]? = some t → MovesLabels t.text → ¬ t.Ends →
          (∀ i, k < i → i ≤ j → ¬ BlankBefore f s i) →
          (∀ i, k < i → i < j → ∃ l' m', (l', i, m') ∈ zs ∧ l'.isLabel = true ∧ l'.isInternalLabel = true) → j ≤ m) ∧
        ∃ q, PositionAt ((seen f s).take (m + 1)) q ∧ ShownAs (seen f s) q l.shownSource := by
  obtain ⟨hs, zs, h1, h2, h3, h4⟩ := finalTags h
  refine ⟨zs, h1, h2, ?_⟩
  intro l k m hz
  obtain ⟨l0, g, e⟩ := h3 _ hz
  have e : l = p.finishKept l0 := e
  subst e
  obtain ⟨q, hq, hh⟩ := g.pos
  refine ⟨?_, g.le, g.lt, ?_, g.moved, ?_, q, hq, shownAs hs hh⟩
  · rw [finishKept_text]; exact g.text
  · rw [finishKept_isLabel]; exact g.eq
  · intro j t a1 a2 a3 a4 a5 a6 a7
    refine h4 _ hz a1 j t a2 a3 a4 a5 (fun i hi hij => ⟨a6 i hi (Nat.le_of_lt hij), ?_⟩) (a6 j a2 (Nat.le_refl _))
    obtain ⟨l', m', b1, b2, b3⟩ := a7 i hi hij
    exact ⟨_, b1, rfl, b2, b3⟩

/-- An instruction shows the position of the last `.loc` before it (a corollary that is easier to read): if all lines in between set
no position, and neither line nor index is 0 and the index is defined, then the instruction shows exactly this position. -/
theorem C60_loc [Recognizers] (L : Locale) (f : Filter) (s : Str) (p : TParser) (h : TextResult L f s p) :
    ∃ zs : List (TLine × Nat), zs.map (·.1) = p.lines.filter (fun l => l.text ≠ []) ∧ zs.Pairwise (fun a b => a.2 < b.2) ∧
      ∀ l k, (l, k) ∈ zs → (seen f s)[k]?.map Seen.text = some l.text ∧
        ∀ a t b i n c name, l.isLabel = false → (seen f s).take (k + 1) = a ++ t :: b → ¬ t.Ends → LocLine t.text i n c → i ≠ 0 →
          (∀ x ∈ b, ∀ ts q, ¬ SetsPos ts x q) → FileNamed (seen f s) i name → n > 0 → l.shownSource = some (name, n, c) := by
  obtain ⟨zs, h1, h2, h3⟩ := C60_positions_partial L f s p h
  refine ⟨zs.map fun z => (z.1, z.2.1), by rw [List.map_map]; exact h1, ?_, ?_⟩
  · rw [List.pairwise_map]; exact h2.imp fun h => h.1
  · intro l k hz
    obtain ⟨⟨l', k', m⟩, hz', e⟩ := List.mem_map.1 hz
    obtain ⟨rfl, rfl⟩ := Prod.mk.inj e
    obtain ⟨g1, -, -, g2, -, -, q, g3, g4⟩ := h3 _ _ _ hz'
    refine ⟨g1, ?_⟩
    intro a t b i n c name hl e he ht hi hb hf hn
    rw [g2 hl, e] at g3
    have key : ∀ b : List Seen, (∀ x ∈ b, ∀ ts q, ¬ SetsPos ts x q) → PositionAt (a ++ t :: b) (some (.indexed i n c)) := by
      intro b
      induction b using snoc_induction with
      | nil => intro _; exact .set (.loc he ht hi)
      | snoc b x ih =>
        intro hb
        have := ih fun y hy => hb y (List.mem_append_left _ hy)
        rw [show a ++ t :: (b ++ [x]) = (a ++ t :: b) ++ [x] by simp]
        exact .keep this fun q' => hb x (List.mem_append_right _ (List.mem_singleton.2 rfl)) _ q'
    have := g3.unique (key b hb)
    subst this
    exact C60_shown_unique _ _ _ _ g4 (.file hf hn)

/-- A label directly before a `.loc` shows the position of this `.loc`, if the line after it is an output line that is no label and
does not give labels a position again. -/
theorem C60_label [Recognizers] (L : Locale) (f : Filter) (s : Str) (p : TParser) (h : TextResult L f s p) :
    ∃ zs : List (TLine × Nat), zs.map (·.1) = p.lines.filter (fun l => l.text ≠ []) ∧ zs.Pairwise (fun a b => a.2 < b.2) ∧
      ∀ l k, (l, k) ∈ zs → (seen f s)[k]?.map Seen.text = some l.text ∧
        ∀ t l' i n c name, l.isLabel = true → (seen f s)[k + 1]? = some t → ¬ BlankBefore f s (k + 1) → ¬ t.Ends → LocLine t.text i n c →
          i ≠ 0 → (l', k + 2) ∈ zs → l'.isLabel = false → ¬ MovesLabels l'.text → FileNamed (seen f s) i name → n > 0 →
          l.shownSource = some (name, n, c) := by
  obtain ⟨zs, h1, h2, h3⟩ := C60_positions_partial L f s p h
  refine ⟨zs.map fun z => (z.1, z.2.1), by rw [List.map_map]; exact h1, ?_, ?_⟩
  · rw [List.pairwise_map]; exact h2.imp fun h => h.1
  · intro l k hz
    obtain ⟨⟨l0, k0, m⟩, hz', e⟩ := List.mem_map.1 hz
    obtain ⟨rfl, rfl⟩ := Prod.mk.inj e
    obtain ⟨g1, g0, -, -, gm, gn, q, g3, g4⟩ := h3 _ _ _ hz'
    refine ⟨g1, ?_⟩
    intro t l' i n c name hl ht hb he hloc hi hy hl' hm hf hn
    obtain ⟨⟨l1, k1, m1⟩, hy', e⟩ := List.mem_map.1 hy
    obtain ⟨e1, e2⟩ := Prod.mk.inj e
    have e1 : l1 = l' := e1
    have e2 : k1 = k0 + 2 := e2
    subst e1 e2
    obtain ⟨f1, -⟩ := h3 _ _ _ hy'
    have ge : k0 + 1 ≤ m := gn (k0 + 1) t hl (Nat.lt_succ_self _) ht (.inl ⟨i, n, c, hloc, hi⟩) he
      (fun i h1 h2 => by rw [show i = k0 + 1 by omega]; exact hb) (fun i h1 h2 => by omega)
    have le : m ≤ k0 + 2 := by
      have key : ∀ zs : List (TLine × Nat × Nat), zs.Pairwise (fun a b => a.2.1 < b.2.1 ∧ (b.1.isLabel = false → a.2.2 ≤ b.2.1)) →
          (l0, k0, m) ∈ zs → (l1, k0 + 2, m1) ∈ zs → m ≤ k0 + 2 := by
        intro zs
        induction zs with
        | nil => intro _ h; simp at h
        | cons z zs ih =>
          intro hp ha hb
          rw [List.pairwise_cons] at hp
          rcases List.mem_cons.1 ha with rfl | ha'
          · rcases List.mem_cons.1 hb with e | hb
            · have := congrArg (fun z => z.2.1) e
              simp only at this
              omega
            · exact (hp.1 _ hb).2 hl'
          · rcases List.mem_cons.1 hb with e | hb
            · subst e
              have := (hp.1 _ ha').1
              simp only at this
              omega
            · exact ih hp.2 ha' hb
      exact key zs h2 hz' hy'
    have em : m = k0 + 1 := by
      rcases Nat.lt_or_ge m (k0 + 2) with hlt | hge
      · omega
      · exfalso
        obtain rfl : m = k0 + 2 := by omega
        obtain ⟨t', ht', hm'⟩ := gm (by omega)
        rw [ht'] at f1
        have f1 : t'.text = l1.text := Option.some.inj f1
        exact hm (f1 ▸ hm')
    subst em
    have hlen := (List.getElem?_eq_some_iff.1 ht).1
    have etake : (seen f s).take (k0 + 1 + 1) = (seen f s).take (k0 + 1) ++ [t] := by
      rw [List.take_add_one, ht]; rfl
    rw [etake] at g3
    have := g3.unique (.set (.loc he hloc hi))
    subst this
    exact C60_shown_unique _ _ _ _ g4 (.file hf hn)

/-- A `.loc` with file index 0, which DWARF 5 allows, is ignored, so a wrong position is shown; and the position is lost after an
instruction that only mentions a symbol with `.text` in its name. -/
theorem C60_violation :
    (∃ p, TextResult Locale.utf8 {} b! ".file 0 \"a.c\"\n.file 1 \"b.h\"\n.loc 1 7\n nop\n.loc 0 5\n ret\n" p ∧
      p.lines.map (fun l => (l.text, l.shownSource)) =
        [(b! ".file 0 \"a.c\"", none), (b! ".file 1 \"b.h\"", none), (b! ".loc 1 7", some (b! "b.h", 7, 0)),
         (b! " nop", some (b! "b.h", 7, 0)), (b! ".loc 0 5", some (b! "b.h", 7, 0)), (b! " ret", some (b! "b.h", 7, 0))]) ∧
    ∃ p, TextResult Locale.utf8 {} b! ".file 1 \"b.c\"\n.loc 1 7\n nop\n call f.text.0\n ret\n" p ∧
      p.lines.map (fun l => (l.text, l.shownSource)) =
        [(b! ".file 1 \"b.c\"", none), (b! ".loc 1 7", some (b! "b.c", 7, 0)), (b! " nop", some (b! "b.c", 7, 0)),
         (b! " call f.text.0", none), (b! " ret", none)] :=
  ⟨textRun_exists (by decide +kernel), textRun_exists (by decide +kernel)⟩

/-! ### C61 -/

/-- C61 (partial): every nonempty output line comes from a line of the input, in the order of the input, and its section is the one
selected last up to this line.  Missing: `SwitchesTo` also recognizes the words inside other lines, and the name of a section ends
at an underscore, see `C61_violation`. -/
theorem C61_sections_partial [Recognizers] (L : Locale) (f : Filter) (s : Str) (p : TParser) (h : TextResult L f s p) :
    ∃ zs : List (TLine × Nat), zs.map (·.1) = p.lines.filter (fun l => l.text ≠ []) ∧ zs.Pairwise (fun a b => a.2 < b.2) ∧
      ∀ l k, (l, k) ∈ zs → (seen f s)[k]?.map Seen.text = some l.text ∧ SectionAt ((seen f s).take (k + 1)) l.sect.s := by
  obtain ⟨hs, zs, h1, h2, h3, h4⟩ := finalTags h
  refine ⟨zs.map fun z => (z.1, z.2.1), by rw [List.map_map]; exact h1, ?_, ?_⟩
  · rw [List.pairwise_map]; exact h2.imp fun h => h.1
  · intro l k hz
    obtain ⟨⟨l', k', m⟩, hz', e⟩ := List.mem_map.1 hz
    obtain ⟨rfl, rfl⟩ := Prod.mk.inj e
    obtain ⟨l0, g, e⟩ := h3 _ hz'
    have e : l' = p.finishKept l0 := e
    subst e
    exact ⟨by rw [finishKept_text]; exact g.text, by rw [finishKept_sect]; exact g.sect⟩

/-- The name of a section is cut off at an underscore, and an instruction that mentions a symbol switches the section. -/
theorem C61_violation :
    ∃ p, TextResult Locale.utf8 {} b! ".section my_sec,\"a\"\n nop\n.text\n ret\n call f.data.0\n ret\n" p ∧
      p.lines.map (fun l => (l.text, l.sect.s)) =
        [(b! ".section my_sec,\"a\"", b! "my"), (b! " nop", b! "my"), (b! ".text", b! "text"), (b! " ret", b! "text"),
         (b! " call f.data.0", b! "data"), (b! " ret", b! "data")] :=
  textRun_exists (by decide +kernel)

/-! ### The hypotheses are satisfiable -/

/-- The programs of the parser recognize the lines. -/
example : Nonempty Recognizers := ⟨inferInstance⟩

/-- The sample of GCC output has 19 lines, with the filter `directives` it is the same: `.cfi_startproc` is preceded by `.loc`. -/
example : (seen {} sampleAsm).length = 19 ∧ seen {} sampleAsm = seen { directives := true } sampleAsm := by decide +kernel

/-- In CUDA code a brace ends the position, before that it does not. -/
example : seen {} b! "}\n.func f(\n)\n{\n}\n" =
    [{ text := b! "}" }, { text := b! ".func f(" }, { text := b! ")", code := true, params := true }, { text := b! "{", code := true },
      { text := b! "}", code := true }] := by decide +kernel

example : ¬ ({ text := b! "}" } : Seen).Ends ∧ ({ text := b! "}", code := true } : Seen).Ends := by decide +kernel

/-- Positions of the sample: the lines from `.loc` to the end of the procedure. -/
example : ((textRun {} sampleAsm).map fun p => (p.lines.filter fun l => l.text ≠ []).map TLine.shownSource) =
    some (List.replicate 7 none ++ List.replicate 8 (some (b! "./example.cpp", 1, 21)) ++ List.replicate 4 none) := by
  decide +kernel

/-- A label gets the position of the directive after it. -/
example : ((textRun {} b! ".file 1 \"a.c\"\nf:\n.loc 1 2 3\n nop\n.loc 2 2 3\n nop\n").map fun p => p.lines.map TLine.shownSource) =
    some [none, some (b! "a.c", 2, 3), some (b! "a.c", 2, 3), some (b! "a.c", 2, 3), none, none] := by
  decide +kernel

/-- So it does if there is an internal label in between; a blank line prevents it. -/
example : ((textRun {} b! ".file 1 \"a.c\"\nf:\n.L1:\n.loc 1 2 3\n nop\ng:\n\n.loc 1 4 5\n nop\n").map fun p =>
      p.lines.map fun l => (l.text, l.shownSource)) =
    some [(b! ".file 1 \"a.c\"", none), (b! "f:", some (b! "a.c", 2, 3)), (b! ".L1:", some (b! "a.c", 2, 3)),
      (b! ".loc 1 2 3", some (b! "a.c", 2, 3)), (b! " nop", some (b! "a.c", 2, 3)), (b! "g:", some (b! "a.c", 2, 3)), ([], none),
      (b! ".loc 1 4 5", some (b! "a.c", 4, 5)), (b! " nop", some (b! "a.c", 4, 5))] := by
  decide +kernel

end AsmParser
