/-
Property C105: the JSON document for the assembly code that a compiler writes, with the filter for unused labels.
-/
import Verif.Proofs.CompiledLeftJson
import Verif.Props.CompiledUse
import Verif.Props.CompiledJson
import Verif.Props.Joint

namespace AsmParser

attribute [local irreducible] Re.search Re.fullMatch

/-- No line of the program is blank. -/
theorem compiled_gaps [Recognizers] {f : Filter} (hf : CompiledFilter f) {xs : List CLine} (hx : ∀ x ∈ xs, x.Wf) :
    (scan f (unlines (xs.map CLine.render))).gaps = [] := by
  have hf' : UsualFilter { f with unusedLabels := false } := ⟨hf.directives, hf.comments, rfl, hf.library, hf.whitespace⟩
  obtain ⟨ys, pl, e, -⟩ := scan_items hf' xs hx false [] []
  have hlines : inputLines (unlines (xs.map CLine.render)) = xs.map CLine.render := by
    refine inputLines_unlines _ fun l hl => ?_
    obtain ⟨x, hm, rfl⟩ := List.mem_map.1 hl
    exact (hx x hm).usual.noNewline
  rw [← scan_unused f false]
  unfold scan
  rw [hlines, e]

section
attribute [local instance] recognizers

/-- The lines that are left, with marks, if the labels `x` are found in use. -/
theorem compiled_marked_of (L : Locale) (hL : L.Ascii) (f : Filter) (hf : CompiledFilter f) (xs : List CLine) (hx : ∀ x ∈ xs, x.Wf)
    (ht : ∀ x ∈ xs, x.Tidy) (hd : (labelNames xs).Nodup)
    (hc : f.compatmode = true → ∀ x ∈ xs, x.isLabel = true → ¬ StartsWithOneOf dataDirectives x.text)
    (p : TParser)
    (h : TextResult L f (unlines (xs.map CLine.render)) p) {x : Found} {defined : Str → Bool} {zs : List (TLine × Nat)}
    (z1 : zs.map (·.1) = p.lines.filter (fun l => l.text ≠ [])) (z2 : zs.Pairwise (fun a b => a.2 < b.2))
    (z3 : ∀ l k, (l, k) ∈ zs → (∃ t, (seen f (unlines (xs.map CLine.render)))[k]? = some t ∧ Describes (seen f (unlines (xs.map CLine.render))) defined k t l) ∧
        SectionAt ((seen f (unlines (xs.map CLine.render))).take (k + 1)) l.sect.s ∧
        ∃ m q, (l.isLabel = false → m = k) ∧
          (l.isLabel = true → (m = k ∧ ∀ j, ¬ GivesPosition f (unlines (xs.map CLine.render)) k j) ∨
            GivesPosition f (unlines (xs.map CLine.render)) k m ∧ ∀ j, GivesPosition f (unlines (xs.map CLine.render)) k j → j ≤ m) ∧
          PositionAt ((seen f (unlines (xs.map CLine.render))).take (m + 1)) q ∧ ShownAs (seen f (unlines (xs.map CLine.render))) q l.shownSource)
    (z4 : ∀ k, (∃ z ∈ zs, z.2 = k) ↔ (∃ t, (seen f (unlines (xs.map CLine.render)))[k]? = some t ∧ t.Kept f) ∧
      ¬ RemovedAt f (seen f (unlines (xs.map CLine.render))) x k) :
    p.lines.map (TLine.marked f) = rowsGen f (rowMarked f xs) x {} none [] xs ∧
      (numberedLabels 1 p.lines).map (fun d => (d.1, JVal.num d.2)) = labelsJson 1 (leftOf f.unusedLabels f.compatmode x {} xs) ∧
      p.lines.length = (leftOf f.unusedLabels f.compatmode x {} xs).length ∧ p.totalLines = xs.length := by
  have hf' : UsualFilter { f with unusedLabels := false } := ⟨hf.directives, hf.comments, rfl, hf.library, hf.whitespace⟩
  obtain ⟨ys, hseen, -, sub, same, -⟩ := compiled_seen hf hx
  have hgaps := compiled_gaps hf hx
  have hy : ∀ y ∈ ys, y.Wf := fun y hm => hx y (sub.subset hm)
  have hyt : ∀ y ∈ ys, y.Tidy := fun y hm => ht y (sub.subset hm)
  have hdy : (labelNames ys).Nodup := hd.sublist (sub.filterMap _)
  have hdata : DataWithoutLabels f (seen f (unlines (xs.map CLine.render))) := by
    intro h1 _ t ht hs a ha
    rw [hseen] at ht
    obtain ⟨y, hm, rfl⟩ := List.mem_map.1 ht
    obtain ⟨nt, rfl⟩ := (defines_iff (hy y hm)).1 ha
    exact hc h1 _ (sub.subset hm) rfl hs
  have htotal := compiled_total hx h
  obtain ⟨defined', hdef', hcols⟩ := C62_columns L hL f _ p h
  rw [hseen] at z4 hdata hdef'
  rw [compiled_filled hf hx h] at z1
  have hz := compiled_numbers hf hy hdy hdata z2 z4
  have hD : ∀ a, defined' a = (labelNames ys).contains a := by
    intro a
    rw [Bool.eq_iff_iff, hdef', List.contains_iff_mem]
    exact labelNames_seen hy
  -- one line
  have hrow : ∀ z ∈ zs, ∃ y, ys[z.2]? = some y ∧
      ((z.1.isLabel, z.1.label) = match y with | .label a _ => (true, a) | _ => (false, [])) ∧
      z.1.marked f =
        rowMarked f ys ((ys.take (z.2 + 1)).foldl CLine.moves none) ((ys.take (z.2 + 1)).foldl CLine.sectionAfter []) (ys.drop (z.2 + 1)) y := by
    rintro ⟨l, k⟩ hm
    obtain ⟨⟨t, h1, h3⟩, h6, m, q, g1, g2, g3, g4⟩ := z3 l k hm
    obtain ⟨⟨t', h1', h2⟩, -⟩ := (z4 k).1 ⟨_, hm, rfl⟩
    rw [hseen] at h1 h3
    cases h1.symm.trans h1'
    obtain ⟨y, h4, rfl, h5⟩ := at_map h1
    obtain ⟨r1, r2, r3⟩ := compiled_row hf hy hyt hseen hgaps hD h4 ((cline_kept hf' (hy y h5)).1 h2) h3 h6 g1 g2 g3 g4
      (hcols l (by rw [← z1]; exact List.mem_map.2 ⟨_, hm, rfl⟩))
    exact ⟨y, h4, r1, by unfold TLine.marked rowMarked; rw [r3, r2]⟩
  have hleft : leftOf f.unusedLabels f.compatmode x {} ys = leftOf f.unusedLabels f.compatmode x {} xs := by
    rw [leftOf_directives, show ys.filter _ = _ from same, ← leftOf_directives]
  -- all lines
  have hasm : p.lines.map (TLine.marked f) = rowsGen f (rowMarked f xs) x {} none [] xs := by
    have : p.lines.map (TLine.marked f) = rowsGen f (rowMarked f ys) x {} none [] ys := by
      let row : Nat → JVal × Bool × Str := fun k =>
        match ys[k]? with
        | none => (.null, false, [])
        | some y => rowMarked f ys ((ys.take (k + 1)).foldl CLine.moves none) ((ys.take (k + 1)).foldl CLine.sectionAfter []) (ys.drop (k + 1)) y
      rw [← rowsGen_idx f (rowMarked f ys) x ys 0 {} none [] row, ← hz, ← z1, List.map_map, List.map_map]
      · refine List.map_congr_left fun w hm => ?_
        obtain ⟨y, h1, -, h2⟩ := hrow w hm
        show _ = row w.2
        unfold row
        rw [h1]
        exact h2
      · intro j x hj
        unfold row
        rw [Nat.zero_add, hj]
    have hdir : ∀ pos sect xs y, y.isDirective = false → rowMarked f ys pos sect xs y = rowMarked f ys pos sect (xs.filter fun x => !x.isDirective) y := by
      intro pos sect xs y _
      unfold rowMarked
      rw [row_directives]
    have hall : rowMarked f ys = rowMarked f xs := by
      funext pos sect rest y
      unfold rowMarked
      rw [row_all f (positionShown_directives same) (contains_directives same)]
    rw [this, rowsGen_directives f _ x hdir ys, show ys.filter _ = _ from same, ← rowsGen_directives f _ x hdir xs, hall]
  let g : CLine → Bool × Str := fun x => match x with | .label a _ => (true, a) | _ => (false, [])
  have hmap : p.lines.map (fun l => (l.isLabel, l.label)) = (leftOf f.unusedLabels f.compatmode x {} xs).map g := by
    let row : Nat → Bool × Str := fun k => (ys[k]?.map g).getD (false, [])
    rw [← hleft, ← leftIdx_map f.unusedLabels f.compatmode x g row ys 0 {} (fun j l hj => by unfold row; rw [Nat.zero_add, hj]; rfl), ← hz, ← z1,
      List.map_map, List.map_map]
    refine List.map_congr_left fun w hm => ?_
    obtain ⟨y, h1, h2, -⟩ := hrow w hm
    show (w.1.isLabel, w.1.label) = row w.2
    unfold row
    rw [h1, h2]
    rfl
  have hlab : (numberedLabels 1 p.lines).map (fun d => (d.1, JVal.num d.2)) = labelsJson 1 (leftOf f.unusedLabels f.compatmode x {} xs) :=
    numbered_labels _ _ 1 hmap
  have hlen : p.lines.length = (leftOf f.unusedLabels f.compatmode x {} xs).length := by
    have := congrArg List.length hmap
    simpa only [List.length_map] using this
  exact ⟨hasm, hlab, hlen, htotal⟩

end

/-- The lines that are left, with marks. -/
theorem compiled_marked (L : Locale) (hL : L.Ascii) (f : Filter) (hf : CompiledFilter f) (xs : List CLine) (hx : ∀ x ∈ xs, x.Wf)
    (ht : ∀ x ∈ xs, x.Tidy) (hd : (labelNames xs).Nodup)
    (hc : f.compatmode = true → ∀ x ∈ xs, x.isLabel = true → ¬ StartsWithOneOf dataDirectives x.text)
    (p : TParser)
    (h : TextResult L f (unlines (xs.map CLine.render)) p) :
    ∃ x : Found, x.Reasons xs ∧ p.lines.map (TLine.marked f) = rowsGen f (rowMarked f xs) x {} none [] xs ∧
      (numberedLabels 1 p.lines).map (fun d => (d.1, JVal.num d.2)) = labelsJson 1 (leftOf f.unusedLabels f.compatmode x {} xs) ∧
      p.lines.length = (leftOf f.unusedLabels f.compatmode x {} xs).length ∧ p.totalLines = xs.length := by
  letI := recognizers
  obtain ⟨ys, hseen, -, sub, same, -⟩ := compiled_seen hf hx
  have hy : ∀ y ∈ ys, y.Wf := fun y hm => hx y (sub.subset hm)
  have hdata : DataWithoutLabels f (seen f (unlines (xs.map CLine.render))) := by
    intro h1 _ t ht hs a ha
    rw [hseen] at ht
    obtain ⟨y, hm, rfl⟩ := List.mem_map.1 ht
    obtain ⟨nt, rfl⟩ := (defines_iff (hy y hm)).1 ha
    exact hc h1 _ (sub.subset hm) rfl hs
  obtain ⟨x, defined, zs, hsound, -, z1, z2, z3, z4⟩ := C80_joint_partial L f _ p h hdata
  refine ⟨x, reasons_of hy sub same (by rw [← hseen]; exact hsound), compiled_marked_of L hL f hf xs hx ht hd hc p h z1 z2 z3 z4⟩

/-- The document that follows. -/
theorem left_document {f : Filter} {xs : List CLine} {p : TParser} {time : Int} {x : Found}
    (h : p.lines.map (TLine.marked f) = rowsGen f (rowMarked f xs) x {} none [] xs ∧
      (numberedLabels 1 p.lines).map (fun d => (d.1, JVal.num d.2)) = labelsJson 1 (leftOf f.unusedLabels f.compatmode x {} xs) ∧
      p.lines.length = (leftOf f.unusedLabels f.compatmode x {} xs).length ∧ p.totalLines = xs.length) :
    documentJson f (p.lines.map TLine.toAsm) (numberedLabels 1 p.lines) (some time) ((p.totalLines : Int) - p.lines.length) = leftJson f time x xs := by
  obtain ⟨g2, g3, g4, g5⟩ := h
  have e1 : p.lines.map (lineJson f.compatmode (!f.dontMaskFilenames) ∘ TLine.toAsm) = rowsLeft f xs x {} none [] xs := by
    have := congrArg (List.map (·.1)) g2
    rw [List.map_map, rowsGen_map] at this
    rw [rowsLeft_gen]
    exact this
  have e2 : ((numberedLabels 1 p.lines).map fun d : Str × Nat => (d.1, JVal.num ((d.2 : Nat) : Int))) =
      labelsJson 1 (leftOf f.unusedLabels f.compatmode x {} xs) := g3
  unfold documentJson leftJson
  rw [List.map_map, g5, g4, e1, e2]
  rfl

/-- C105: the JSON document for the assembly code that a compiler writes, exactly, also with the filter for unused labels: the lines
that are left with their references, source positions, sections and texts, the numbers of the labels among the lines that are left, and the
number of the other lines.  Labels are found in use for a reason. -/
theorem C105_document (L : Locale) (hL : L.Ascii) (f : Filter) (hf : CompiledFilter f) (xs : List CLine) (hx : ∀ x ∈ xs, x.Wf)
    (ht : ∀ x ∈ xs, x.Tidy) (hd : (labelNames xs).Nodup)
    (hc : f.compatmode = true → ∀ x ∈ xs, x.isLabel = true → ¬ StartsWithOneOf dataDirectives x.text)
    (hs : PlainText (unlines (xs.map CLine.render))) (p : TParser) (time : Int)
    (h : TextResult L f (unlines (xs.map CLine.render)) p) :
    ∃ x : Found, x.Reasons xs ∧ readJson (p.outputJson time) = some (leftJson f time x xs) := by
  rw [C20_text L f _ p time h hs]
  obtain ⟨x, g1, g2⟩ := compiled_marked L hL f hf xs hx ht hd hc p h
  exact ⟨x, g1, congrArg some (left_document g2)⟩

/-- C105 for the program: with the options `-directives`, `-comment_only` and perhaps `-unused_labels` it prints this document, if it ends,
and it does unless there is a circle as in C102. -/
theorem C105_program (e : Env) (hL : e.L.Ascii) (xs : List CLine) (hx : ∀ x ∈ xs, x.Wf) (ht : ∀ x ∈ xs, x.Tidy)
    (hin : requestedInput e = unlines (xs.map CLine.render)) (hs : PlainText (requestedInput e))
    (hl : e.localeOk = true) (hi : hasInput e.args) (h2 : b! "-directives" ∈ e.args) (h3 : b! "-comment_only" ∈ e.args)
    (h4 : ∀ a ∈ [b! "-outputtext", b! "-binary", b! "-library_functions", b! "-whitespace"], a ∉ e.args)
    (hd : (labelNames xs).Nodup)
    (hc : b! "-nocompat" ∉ e.args → ∀ x ∈ xs, x.isLabel = true → ¬ StartsWithOneOf dataDirectives x.text) :
    (NoCircle xs → ∃ n r, mainProgram e n = some r) ∧
    ∀ n r, mainProgram e n = some r → r.exit = 0 ∧
      ∃ x : Found, x.Reasons xs ∧ readJson r.stdout = some (leftJson (requestedFilter e.args) e.time x xs) := by
  have hf : CompiledFilter (requestedFilter e.args) :=
    ⟨by simp [requestedFilter, h2], by simp [requestedFilter, h3],
     by simpa [requestedFilter] using h4 b! "-library_functions" (by simp), by simpa [requestedFilter] using h4 b! "-whitespace" (by simp)⟩
  have hb := h4 b! "-binary" (by simp)
  constructor
  · intro hn
    letI := recognizers
    refine C71_ends e fun _ => ?_
    rw [hin]
    have hf' : UsualFilter { requestedFilter e.args with unusedLabels := false } := ⟨hf.directives, hf.comments, rfl, hf.library, hf.whitespace⟩
    exact no_chain hf' hx hn
  · intro n r h
    obtain ⟨h0, p, hp, k1, -⟩ := C48_text e n hl hi hb r h
    rw [if_neg (h4 b! "-outputtext" (by simp))] at k1
    rw [hin] at hp hs
    obtain ⟨x, g1, g2⟩ := C105_document e.L hL _ hf xs hx ht hd (fun hc' => hc (by simpa [requestedFilter] using hc')) hs p e.time hp
    exact ⟨h0, x, g1, by rw [k1]; exact g2⟩

/-! ### A sample -/

theorem usedSample_tidy : ∀ x ∈ usedSample, x.Tidy := by
  unfold usedSample usedBefore usedBody usedAfter
  simp only [List.cons_append, List.nil_append, List.forall_mem_cons]
  refine ⟨?_, ?_, ?_, ?_, ?_, ?_, ?_, ?_, ?_, ?_, ?_, ?_, fun x hx => by cases hx⟩
  all_goals unfold CLine.Tidy
  all_goals decide

/-- The other hypotheses hold for the sample. -/
example : (∀ x ∈ usedSample, x.Wf) ∧ (labelNames usedSample).Nodup ∧
    PlainText (unlines (usedSample.map CLine.render)) ∧
    CompiledFilter { directives := true, commentOnly := true, unusedLabels := true, compatmode := false } ∧ Locale.utf8.Ascii :=
  ⟨usedSample_wf, by decide, by unfold PlainText; decide +kernel, ⟨rfl, rfl, rfl, rfl⟩, Locale.utf8_ascii⟩

/-- The document, if the exported functions are found in use: the function between them is removed, and the labels are numbered among
the lines that are left. -/
example : leftJson { directives := true, commentOnly := true, unusedLabels := true, compatmode := false } 7 ⟨[b! "f", b! "h"], [], []⟩ usedSample =
    .obj [
    (b! "asm", .arr [
      .obj [(b! "labels", .arr []), (b! "source", .null), (b! "section", .str b! "text"), (b! "text", .str b! "f:")],
      .obj [(b! "labels", .arr []), (b! "source", .null), (b! "section", .str b! "text"), (b! "text", .str b! "        leal    (%rdi,%rdi), %eax")],
      .obj [(b! "labels", .arr []), (b! "source", .null), (b! "section", .str b! "text"), (b! "text", .str b! "        ret")],
      .obj [(b! "labels", .arr []), (b! "source", .null), (b! "section", .str b! "text"), (b! "text", .str b! "h:")],
      .obj [(b! "labels", .arr [.obj [(b! "name", .str b! "f"), (b! "range", .obj [(b! "startCol", .num 17), (b! "endCol", .num 18)])]]), (b! "source", .null),
        (b! "section", .str b! "text"), (b! "text", .str b! "        jmp     f")],
      .obj [(b! "labels", .arr [.obj [(b! "name", .str b! "f"), (b! "range", .obj [(b! "startCol", .num 17), (b! "endCol", .num 18)])]]), (b! "source", .null),
        (b! "section", .str b! "text"), (b! "text", .str b! "        .quad   f")]]),
    (b! "labelDefinitions", .obj [(b! "f", .num 1), (b! "h", .num 4)]), (b! "parsingTime", .num 7), (b! "filteredCount", .num 6)] := by
  rfl

end AsmParser
