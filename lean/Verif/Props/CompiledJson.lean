/-
Property C104: the JSON document for the assembly code that a compiler writes.
-/
import Verif.Proofs.CompiledJson
import Verif.Props.Compiled

namespace AsmParser

attribute [local irreducible] Re.search Re.fullMatch

/-- C104: the JSON document for the assembly code that a compiler writes, exactly: lines with references, source positions, sections
and texts, the numbers of the labels, and the number of lines that are left out. -/
theorem C104_document (L : Locale) (hL : L.Ascii) (f : Filter) (hf : UsualFilter f) (xs : List CLine) (hx : ∀ x ∈ xs, x.Wf)
    (ht : ∀ x ∈ xs, x.Tidy)
    (hd : f.compatmode = true → ∀ x ∈ xs, x.shows = true → ¬ StartsWithOneOf dataDirectives x.text)
    (hs : PlainText (unlines (xs.map CLine.render))) (p : TParser) (time : Int)
    (h : TextResult L f (unlines (xs.map CLine.render)) p) : readJson (p.outputJson time) = some (compiledJson f time xs) := by
  rw [C20_text L f _ p time h hs]
  letI := recognizers
  have hout := (C102_compiled L f hf xs hx hd p h).1
  obtain ⟨ys, pl, e, sub, hys⟩ := scan_items hf xs hx false [] []
  have hlines : inputLines (unlines (xs.map CLine.render)) = xs.map CLine.render := by
    refine inputLines_unlines _ fun l hl => ?_
    obtain ⟨x, hm, rfl⟩ := List.mem_map.1 hl
    exact (hx x hm).usual.noNewline
  have hscan : scan f (unlines (xs.map CLine.render)) = { placed := pl, texts := ys.map CLine.seen, shown := (xs.filter CLine.shows).map CLine.text } := by
    unfold scan
    rw [hlines]
    exact e
  have hseen : seen f (unlines (xs.map CLine.render)) = ys.map CLine.seen := by unfold seen; rw [hscan]
  have hgaps : (scan f (unlines (xs.map CLine.render))).gaps = [] := by rw [hscan]
  have hy : ∀ y ∈ ys, y.Wf := fun y hm => hx y (sub.subset hm)
  have hyt : ∀ y ∈ ys, y.Tidy := fun y hm => ht y (sub.subset hm)
  have hfil : ys.filter CLine.shows = xs.filter CLine.shows := by
    have : ∀ zs : List CLine, zs.filter CLine.shows = (zs.filter fun x => !x.isDirective).filter CLine.shows := by
      intro zs
      rw [List.filter_filter]
      refine List.filter_congr fun x _ => ?_
      cases x <;> rfl
    rw [this ys, this xs, hys]
  have htexts : p.lines.map TLine.text = (xs.filter CLine.shows).map CLine.text := by
    have := congrArg (List.map (·.1)) hout
    rwa [shownOf_text, List.map_map] at this
  have hlen : p.lines.length = (xs.filter CLine.shows).length := by
    have := congrArg List.length htexts
    simpa only [List.length_map] using this
  have hall : p.lines.filter (fun l => l.text ≠ []) = p.lines := by
    refine List.filter_eq_self.2 fun l hl => ?_
    have : l.text ∈ p.lines.map TLine.text := List.mem_map_of_mem hl
    rw [htexts] at this
    obtain ⟨x, hm, e⟩ := List.mem_map.1 this
    obtain ⟨hm, hs⟩ := List.mem_filter.1 hm
    rw [← e]
    simpa using text_ne_nil (hx x hm) hs
  have htotal := compiled_total hx h
  -- lines and their numbers
  obtain ⟨defined, zs, hdef, z1, z2, z3, z4⟩ := C67_lines L f _ p h
  obtain ⟨ws, w1, w2, w3⟩ := C60_labels L f _ p h
  obtain ⟨vs, v1, v2, v3⟩ := C61_sections_partial L f _ p h
  obtain ⟨defined', hdef', hcols⟩ := C62_columns L hL f _ p h
  rw [hall] at z1 w1 v1
  rw [hseen] at z3 z4 hdef'
  have hidx : ∀ ks : List Nat, ks.Pairwise (· < ·) → ks.length = p.lines.length →
      (∀ k ∈ ks, ∃ t l, (ys.map CLine.seen)[k]? = some t ∧ t.text = l.text ∧ l ∈ p.lines) → ks = shownIdx 0 ys := by
    intro ks s1 hl hm
    have m1 : ∀ k ∈ ks, k ∈ shownIdx 0 ys := by
      intro k hk
      obtain ⟨t, l, h1, h2, h3⟩ := hm k hk
      obtain ⟨y, h4, rfl, h5⟩ := at_map h1
      have : l.text ∈ p.lines.map TLine.text := List.mem_map_of_mem h3
      rw [htexts] at this
      obtain ⟨x, hxm, e⟩ := List.mem_map.1 this
      obtain ⟨hxm, hs⟩ := List.mem_filter.1 hxm
      exact mem_shownIdx.2 ⟨k, y, by simp, h4, shows_text (hx x hxm) (hy y h5) (e.trans h2.symm) hs⟩
    refine (sorted_sublist _ _ s1 (shownIdx_sorted ys 0) m1).eq_of_length ?_
    rw [hl, hlen, ← hfil]
    have := congrArg List.length (shownIdx_rows ys ys 0 none (fun k => match ys[k]? with
      | none => ([], false, none)
      | some y => (y.text, y.isLabel, if y.isLabel then none else positionShown ys ((ys.take (k + 1)).foldl CLine.moves none)))
      (fun j x hj _ => by rw [Nat.zero_add]; simp only [hj]))
    rw [List.length_map] at this
    rw [this, ← List.length_map (f := fun r : Str × Bool × Option (Str × Int × Int) => r.1), shownOf_text, List.length_map]
  have hz : zs.map (·.2) = shownIdx 0 ys := by
    refine hidx _ (by rw [List.pairwise_map]; exact z2) (by rw [← z1, List.length_map, List.length_map]) fun k hk => ?_
    obtain ⟨z, hm, rfl⟩ := List.mem_map.1 hk
    obtain ⟨t, h1, -, h3⟩ := z3 z hm
    exact ⟨t, z.1, h1, h3.text.symm, by rw [← z1]; exact List.mem_map_of_mem hm⟩
  have hw : ws.map (·.2.1) = shownIdx 0 ys := by
    refine hidx _ (by rw [List.pairwise_map]; exact w2) (by rw [← w1, List.length_map, List.length_map]) fun k hk => ?_
    obtain ⟨⟨l, k, m⟩, hm, rfl⟩ := List.mem_map.1 hk
    obtain ⟨⟨t, h1, -, h3⟩, -⟩ := w3 l k m hm
    rw [hseen] at h1
    exact ⟨t, l, h1, h3, by rw [← w1]; exact List.mem_map.2 ⟨_, hm, rfl⟩⟩
  have hv : vs.map (·.2) = shownIdx 0 ys := by
    refine hidx _ (by rw [List.pairwise_map]; exact v2) (by rw [← v1, List.length_map, List.length_map]) fun k hk => ?_
    obtain ⟨⟨l, k⟩, hm, rfl⟩ := List.mem_map.1 hk
    obtain ⟨h1, -⟩ := v3 l k hm
    rw [hseen] at h1
    obtain ⟨t, h2, h3⟩ := Option.map_eq_some_iff.1 h1
    exact ⟨t, l, h2, h3, by rw [← v1]; exact List.mem_map.2 ⟨_, hm, rfl⟩⟩
  have hzw : zs = ws.map fun w => (w.1, w.2.1) := pairs_eq (by rw [List.map_map]; exact z1.trans w1.symm) (by rw [List.map_map]; exact hz.trans hw.symm)
  have hvw : vs = ws.map fun w => (w.1, w.2.1) := pairs_eq (by rw [List.map_map]; exact v1.trans w1.symm) (by rw [List.map_map]; exact hv.trans hw.symm)
  have hD : ∀ a, defined' a = (labelNames ys).contains a := by
    intro a
    rw [Bool.eq_iff_iff, hdef', List.contains_iff_mem]
    exact labelNames_seen hy
  -- one line
  have hrow : ∀ w ∈ ws, ∃ y, ys[w.2.1]? = some y ∧
      ((w.1.isLabel, w.1.label) = match y with | .label a _ => (true, a) | _ => (false, [])) ∧
      lineJson f.compatmode (!f.dontMaskFilenames) w.1.toAsm =
        rowJson f ys ((ys.take (w.2.1 + 1)).foldl CLine.moves none) ((ys.take (w.2.1 + 1)).foldl CLine.sectionAfter []) (ys.drop (w.2.1 + 1)) y := by
    rintro ⟨l, k, m⟩ hm
    obtain ⟨t, h1, h2, h3⟩ := z3 (l, k) (by rw [hzw]; exact List.mem_map.2 ⟨_, hm, rfl⟩)
    obtain ⟨y, h4, rfl, h5⟩ := at_map h1
    obtain ⟨-, h6⟩ := v3 l k (by rw [hvw]; exact List.mem_map.2 ⟨_, hm, rfl⟩)
    obtain ⟨-, g1, g2, q, g3, g4⟩ := w3 l k m hm
    obtain ⟨r1, -, r2⟩ := compiled_row ⟨hf.directives, hf.comments, hf.library, hf.whitespace⟩ hy hyt hseen hgaps hD h4
      ((cline_kept hf (hy y h5)).1 h2) h3 h6 g1 g2 g3 g4 (hcols l (by rw [← w1]; exact List.mem_map.2 ⟨_, hm, rfl⟩))
    exact ⟨y, h4, r1, r2⟩
  -- all lines
  have hasm : p.lines.map (fun l => lineJson f.compatmode (!f.dontMaskFilenames) l.toAsm) = rowsJson f xs none [] xs := by
    have : p.lines.map (fun l => lineJson f.compatmode (!f.dontMaskFilenames) l.toAsm) = rowsJson f ys none [] ys := by
      let row : Nat → JVal := fun k =>
        match ys[k]? with
        | none => .null
        | some y => rowJson f ys ((ys.take (k + 1)).foldl CLine.moves none) ((ys.take (k + 1)).foldl CLine.sectionAfter []) (ys.drop (k + 1)) y
      rw [← rows_idx f ys ys 0 none [] row, ← hw, ← w1, List.map_map, List.map_map]
      · refine List.map_congr_left fun w hm => ?_
        obtain ⟨y, h1, -, h2⟩ := hrow w hm
        show _ = row w.2.1
        unfold row
        rw [h1]
        exact h2
      · intro j x hj _
        unfold row
        rw [Nat.zero_add, hj]
    rw [this, rows_directives f ys ys, hys, ← rows_directives f ys xs]
    exact rows_all f (positionShown_directives hys) (contains_directives hys) xs none []
  have hlab : (numberedLabels 1 p.lines).map (fun d => (d.1, JVal.num d.2)) = labelsJson 1 (xs.filter CLine.shows) := by
    refine numbered_labels _ _ 1 ?_
    rw [← hfil]
    let g : CLine → Bool × Str := fun x => match x with | .label a _ => (true, a) | _ => (false, [])
    have hidx2 : ∀ (zs : List CLine) (n : Nat) (row : Nat → Bool × Str), (∀ j x, zs[j]? = some x → row (n + j) = g x) →
        (shownIdx n zs).map row = (zs.filter CLine.shows).map g := by
      intro zs
      induction zs with
      | nil => intros; rfl
      | cons x zs ih =>
        intro n row hr
        unfold shownIdx
        rw [List.map_append, ih (n + 1) row fun j y hj => by rw [← hr (j + 1) y (by simpa using hj)]; congr 1; omega]
        cases hs : x.shows with
        | false => rw [List.filter_cons_of_neg (by simp [hs])]; rfl
        | true =>
          rw [List.filter_cons_of_pos hs]
          have := hr 0 x rfl
          rw [Nat.add_zero] at this
          simp [this]
    show _ = (ys.filter CLine.shows).map g
    let row : Nat → Bool × Str := fun k => (ys[k]?.map g).getD (false, [])
    rw [← hidx2 ys 0 row fun j x hj => by unfold row; rw [Nat.zero_add, hj]; rfl, ← hw, ← w1, List.map_map, List.map_map]
    refine List.map_congr_left fun w hm => ?_
    obtain ⟨y, h1, h2, -⟩ := hrow w hm
    show (w.1.isLabel, w.1.label) = row w.2.1
    unfold row
    rw [h1, h2]
    rfl
  unfold documentJson compiledJson
  rw [List.map_map, htotal, hlen]
  have e1 : p.lines.map (lineJson f.compatmode (!f.dontMaskFilenames) ∘ TLine.toAsm) = rowsJson f xs none [] xs := hasm
  have e2 : ((numberedLabels 1 p.lines).map fun d : Str × Nat => (d.1, JVal.num ((d.2 : Nat) : Int))) = labelsJson 1 (xs.filter CLine.shows) := hlab
  rw [e1, e2]
  rfl

/-- C104 for the program: with the options `-directives` and `-comment_only` it prints this document, if it ends, and it does unless
there is a circle as in C102. -/
theorem C104_program (e : Env) (hL : e.L.Ascii) (xs : List CLine) (hx : ∀ x ∈ xs, x.Wf) (ht : ∀ x ∈ xs, x.Tidy)
    (hin : requestedInput e = unlines (xs.map CLine.render)) (hs : PlainText (requestedInput e))
    (hl : e.localeOk = true) (hi : hasInput e.args) (h2 : b! "-directives" ∈ e.args) (h3 : b! "-comment_only" ∈ e.args)
    (h4 : ∀ a ∈ [b! "-outputtext", b! "-binary", b! "-unused_labels", b! "-library_functions", b! "-whitespace"], a ∉ e.args)
    (hd : b! "-nocompat" ∉ e.args → ∀ x ∈ xs, x.shows = true → ¬ StartsWithOneOf dataDirectives x.text) :
    (NoCircle xs → ∃ n r, mainProgram e n = some r) ∧
    ∀ n r, mainProgram e n = some r → r.exit = 0 ∧ readJson r.stdout = some (compiledJson (requestedFilter e.args) e.time xs) := by
  have hf : UsualFilter (requestedFilter e.args) :=
    ⟨by simp [requestedFilter, h2], by simp [requestedFilter, h3], by simpa [requestedFilter] using h4 b! "-unused_labels" (by simp),
     by simpa [requestedFilter] using h4 b! "-library_functions" (by simp), by simpa [requestedFilter] using h4 b! "-whitespace" (by simp)⟩
  have hb := h4 b! "-binary" (by simp)
  constructor
  · intro hn
    letI := recognizers
    refine C71_ends e fun _ => ?_
    rw [hin]
    exact no_chain hf hx hn
  · intro n r h
    obtain ⟨h0, p, hp, k1, -⟩ := C48_text e n hl hi hb r h
    rw [if_neg (h4 b! "-outputtext" (by simp))] at k1
    rw [hin] at hp hs
    refine ⟨h0, ?_⟩
    rw [k1]
    exact C104_document e.L hL _ hf xs hx ht (fun hc => hd (by simpa [requestedFilter] using hc)) hs p e.time hp

/-! ### Samples -/

theorem compiledSample_tidy : ∀ x ∈ compiledSample, x.Tidy := by
  unfold compiledSample
  simp only [List.forall_mem_cons]
  refine ⟨?_, ?_, ?_, ?_, ?_, ?_, ?_, ?_, ?_, ?_, ?_, ?_, ?_, ?_, ?_, ?_, ?_, fun x hx => by cases hx⟩
  all_goals unfold CLine.Tidy
  all_goals decide

/-- The document for the sample. -/
example : compiledJson { directives := true, commentOnly := true, compatmode := false } 7 compiledSample = .obj [
    (b! "asm", .arr [
      .obj [(b! "labels", .arr []), (b! "source", .obj [(b! "column", .num 10), (b! "file", .str b! "/src/t.c"), (b! "mainsource", .str b! "false"), (b! "line", .num 2)]),
        (b! "section", .str b! "text"), (b! "text", .str b! "f:      # @f")],
      .obj [(b! "labels", .arr []), (b! "source", .obj [(b! "column", .num 10), (b! "file", .str b! "/src/t.c"), (b! "mainsource", .str b! "false"), (b! "line", .num 2)]),
        (b! "section", .str b! "text"), (b! "text", .str b! "        leal    (%rdi,%rdi), %eax   # x")],
      .obj [(b! "labels", .arr []), (b! "source", .obj [(b! "file", .str b! "/src/t.c"), (b! "mainsource", .str b! "false"), (b! "line", .num 3)]),
        (b! "section", .str b! "text"), (b! "text", .str b! "        ret")],
      .obj [(b! "labels", .arr []), (b! "source", .null), (b! "section", .str b! "text"), (b! "text", .str b! ".LC0:")],
      .obj [(b! "labels", .arr []), (b! "source", .null), (b! "section", .str b! "text"), (b! "text", .str b! "        .string \"abc\"")]]),
    (b! "labelDefinitions", .obj [(b! "f", .num 1), (b! ".LC0", .num 4)]), (b! "parsingTime", .num 7), (b! "filteredCount", .num 12)] := by
  rfl

/-- The input is plain text, and the program prints the document. -/
example : PlainText (unlines (compiledSample.map CLine.render)) := by unfold PlainText; decide +kernel
example : Locale.utf8.Ascii := Locale.utf8_ascii
example : ((mainProgram (sampleEnv [b! "-stdin", b! "-directives", b! "-comment_only", b! "-nocompat"]
    (unlines (compiledSample.map CLine.render))) 100).map fun r => r.exit) = some 0 := by decide +kernel

/-- A label gets the position of the next `.loc`, also over an internal label, but not over an instruction or another function. -/
example : settlePos none [.label b! ".LFB0" [], .directive b! ".cfi_startproc" [] [], .loc b! " " 1 2 (some 3) [], .loc b! " " 1 2 (some 4) [], .instr b! "ret" [] [], .loc b! " " 1 3 (some 1) []] =
      some (1, 2, 4) ∧
    settlePos none [.instr b! "ret" [] [], .loc b! " " 1 3 (some 1) []] = none ∧ settlePos none [.label b! "g" [], .loc b! " " 1 3 (some 1) []] = none := by decide

/-- References: only labels of the program count.  Sections: the name ends at the first character that is not in it. -/
example : (CLine.instr b! "jmp" b! "\t" b! ".L2").references [.label b! ".L2" []] = [{ name := b! ".L2", startCol := 17, endCol := 20 }] ∧
    (CLine.instr b! "jmp" b! "\t" b! ".L2").references [.label b! ".L3" []] = [] ∧
    CLine.sectionAfter b! "text" (.block b! ".section" b! "\t" b! ".rodata.str1.1,\"aMS\",@progbits,1") = b! ".rodata.str1.1" := by
  decide +kernel

end AsmParser
