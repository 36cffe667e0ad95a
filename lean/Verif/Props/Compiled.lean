/-
Property C102: what text mode shows of the assembly code that a compiler writes.
-/
import Verif.Proofs.CompiledCircle
import Verif.Props.Program

namespace AsmParser

attribute [local irreducible] Re.search Re.fullMatch

/-- C102: of the assembly code that a compiler writes, text mode shows exactly the labels, instructions and data, in their order and
unchanged but for tabs, and says of each instruction and each piece of data the source position that the last `.loc` before it gives in this block, with the name
of the file that belongs to the index. -/
theorem C102_compiled (L : Locale) (f : Filter) (hf : UsualFilter f) (xs : List CLine) (hx : ∀ x ∈ xs, x.Wf)
    (hd : f.compatmode = true → ∀ x ∈ xs, x.shows = true → ¬ StartsWithOneOf dataDirectives x.text) (p : TParser)
    (h : TextResult L f (unlines (xs.map CLine.render)) p) :
    p.lines.map (fun l => (l.text, l.isLabel, if l.isLabel then none else l.shownSource)) = shownOf xs none xs ∧
    p.outputText = unlines ((xs.filter CLine.shows).map CLine.text) := by
  letI := recognizers
  obtain ⟨ys, pl, e, sub, hys⟩ := scan_items hf xs hx false [] []
  have hlines : inputLines (unlines (xs.map CLine.render)) = xs.map CLine.render := by
    refine inputLines_unlines _ fun l hl => ?_
    obtain ⟨x, hm, rfl⟩ := List.mem_map.1 hl
    exact (hx x hm).usual.noNewline
  have hscan : scan f (unlines (xs.map CLine.render)) = { placed := pl, texts := ys.map CLine.seen, shown := (xs.filter CLine.shows).map CLine.text } := by
    unfold scan
    rw [hlines]
    exact e
  have hseen : seen f (unlines (xs.map CLine.render)) = ys.map CLine.seen := by unfold seen; rw [hscan]
  have hshown : (scan f (unlines (xs.map CLine.render))).shown = (xs.filter CLine.shows).map CLine.text := by rw [hscan]
  have hy : ∀ y ∈ ys, y.Wf := fun y hm => hx y (sub.subset hm)
  have hloose : NoLooseData f (unlines (xs.map CLine.render)) := by
    intro h1 h2 t ht
    rw [hshown] at ht
    obtain ⟨x, hm, rfl⟩ := List.mem_map.1 ht
    obtain ⟨hm, hs⟩ := List.mem_filter.1 hm
    exact hd h1 x hm hs
  have htexts := hloose.texts h hf.unused
  rw [hshown] at htexts
  have hcol : collapse ((xs.filter CLine.shows).map CLine.text) = (xs.filter CLine.shows).map CLine.text := by
    have : ∀ t ∈ (xs.filter CLine.shows).map CLine.text, t ≠ [] := by
      intro t ht
      obtain ⟨x, hm, rfl⟩ := List.mem_map.1 ht
      obtain ⟨hm, hs⟩ := List.mem_filter.1 hm
      exact text_ne_nil (hx x hm) hs
    generalize (xs.filter CLine.shows).map CLine.text = ts at this
    unfold collapse
    generalize true = b
    induction ts generalizing b with
    | nil => rfl
    | cons t ts ih =>
      unfold collapseFrom
      rw [if_neg (this t (by simp)), ih fun u hu => this u (by simp [hu])]
  rw [hcol] at htexts
  refine ⟨?_, by rw [outputText_unlines, htexts]⟩
  have hall : p.lines.filter (fun l => l.text ≠ []) = p.lines := by
    refine List.filter_eq_self.2 fun l hl => ?_
    have : l.text ∈ p.lines.map TLine.text := List.mem_map_of_mem hl
    rw [htexts] at this
    obtain ⟨x, hm, e⟩ := List.mem_map.1 this
    obtain ⟨hm, hs⟩ := List.mem_filter.1 hm
    rw [← e]
    simpa using text_ne_nil (hx x hm) hs
  obtain ⟨defined, zs, -, z1, z2, z3, z4⟩ := C67_lines L f _ p h
  obtain ⟨ws, w1, w2, w3⟩ := C60_positions_partial L f _ p h
  rw [hall] at z1 w1
  rw [hseen] at z3 z4 w3
  have at_ : ∀ {k : Nat} {t : Seen}, (ys.map CLine.seen)[k]? = some t → ∃ y, ys[k]? = some y ∧ t = y.seen ∧ y ∈ ys := by
    intro k t hk
    rw [List.getElem?_map] at hk
    cases hh : ys[k]? with
    | none => rw [hh] at hk; cases hk
    | some y => rw [hh] at hk; cases hk; exact ⟨y, rfl, rfl, List.mem_of_getElem? hh⟩
  -- the numbers of the lines
  have hz : zs.map (·.2) = shownIdx 0 ys := by
    have s1 : (zs.map (·.2)).Pairwise (· < ·) := by rw [List.pairwise_map]; exact z2
    have m1 : ∀ k ∈ zs.map (·.2), k ∈ shownIdx 0 ys := by
      intro k hk
      obtain ⟨z, hz, rfl⟩ := List.mem_map.1 hk
      obtain ⟨t, h1, h2, -⟩ := z3 z hz
      obtain ⟨y, h3, rfl, h4⟩ := at_ h1
      exact mem_shownIdx.2 ⟨z.2, y, by omega, h3, (cline_kept hf (hy y h4)).1 h2⟩
    have m2 : ∀ k ∈ shownIdx 0 ys, k ∈ zs.map (·.2) := by
      intro k hk
      obtain ⟨j, y, rfl, h1, h2⟩ := mem_shownIdx.1 hk
      have hm := List.mem_of_getElem? h1
      rcases z4 hf.unused (0 + j) y.seen (by rw [List.getElem?_map, Nat.zero_add, h1]; rfl) ((cline_kept hf (hy y hm)).2 h2) with ⟨z, hz, e⟩ | ⟨h3, -, -, h4⟩
      · exact List.mem_map.2 ⟨z, hz, e⟩
      · exact (hd h3 y (sub.subset hm) h2 h4).elim
    have a := sorted_sublist _ _ s1 (shownIdx_sorted ys 0) m1
    have b := sorted_sublist _ _ (shownIdx_sorted ys 0) s1 m2
    exact a.eq_of_length (Nat.le_antisymm a.length_le b.length_le)
  have hw : ws.map (·.2.1) = shownIdx 0 ys := by
    have s1 : (ws.map (·.2.1)).Pairwise (· < ·) := by rw [List.pairwise_map]; exact w2.imp fun h => h.1
    have m1 : ∀ k ∈ ws.map (·.2.1), k ∈ shownIdx 0 ys := by
      intro k hk
      obtain ⟨⟨l, k', m⟩, hm, rfl⟩ := List.mem_map.1 hk
      obtain ⟨h1, -⟩ := w3 l k' m hm
      cases hk' : (ys.map CLine.seen)[k']? with
      | none => rw [hk'] at h1; cases h1
      | some t =>
        rw [hk'] at h1
        obtain ⟨y, h3, rfl, h4⟩ := at_ hk'
        have h1 : y.seen.text = l.text := by simpa using h1
        have hl : l.text ∈ p.lines.map TLine.text := by
          rw [← w1]
          exact List.mem_map.2 ⟨l, List.mem_map.2 ⟨_, hm, rfl⟩, rfl⟩
        rw [htexts] at hl
        obtain ⟨x, hxm, e⟩ := List.mem_map.1 hl
        obtain ⟨hxm, hs⟩ := List.mem_filter.1 hxm
        exact mem_shownIdx.2 ⟨k', y, by simp, h3, shows_text (hx x hxm) (hy y h4) (e.trans h1.symm) hs⟩
    refine (sorted_sublist _ _ s1 (shownIdx_sorted ys 0) m1).eq_of_length ?_
    rw [← hz, List.length_map, List.length_map]
    have := congrArg List.length (w1.trans z1.symm)
    rwa [List.length_map, List.length_map] at this
  have hzw : zs = ws.map fun w => (w.1, w.2.1) := by
    refine pairs_eq ?_ ?_
    · rw [List.map_map]; exact z1.trans w1.symm
    · rw [List.map_map]; exact hz.trans hw.symm
  -- the rows
  have hrow : ∀ w ∈ ws, ∃ y, ys[w.2.1]? = some y ∧ (w.1.text, w.1.isLabel, if w.1.isLabel then none else w.1.shownSource) =
      (y.text, y.isLabel, if y.isLabel then none else positionShown ys ((ys.take (w.2.1 + 1)).foldl CLine.moves none)) := by
    rintro ⟨l, k, m⟩ hm
    obtain ⟨t, h1, h2, h3⟩ := z3 (l, k) (by rw [hzw]; exact List.mem_map.2 ⟨_, hm, rfl⟩)
    obtain ⟨y, h4, rfl, h5⟩ := at_ h1
    refine ⟨y, h4, ?_⟩
    have hyw := hy y h5
    have hs := (cline_kept hf hyw).1 h2
    have hlab : l.isLabel = y.isLabel := by
      have := seen_label hyw hs
      rcases h3.label with ⟨a, b⟩ | ⟨a, -, b⟩
      · rw [a, this.2 ⟨_, b⟩]
      · rw [a]
        cases hh : y.isLabel with
        | false => rfl
        | true => obtain ⟨l', hl'⟩ := this.1 hh; exact (b l' hl').elim
    show (l.text, l.isLabel, if l.isLabel = true then none else l.shownSource) = _
    rw [hlab, show l.text = y.text from h3.text]
    cases hl : y.isLabel with
    | true => rfl
    | false =>
      obtain ⟨-, -, -, h6, -, -, q, h7, h8⟩ := w3 l k m hm
      obtain rfl := h6 (by rw [hlab, hl])
      rw [← List.map_take] at h7
      have := positionAt_of h7 _ rfl fun x hx => hy x (List.take_subset _ _ hx)
      rw [this] at h8
      rw [shownAs_of hy h8]
  have : p.lines.map (fun l => (l.text, l.isLabel, if l.isLabel then none else l.shownSource)) = shownOf ys none ys := by
    let row : Nat → Str × Bool × Option (Str × Int × Int) := fun k =>
      match ys[k]? with
      | none => ([], false, none)
      | some y => (y.text, y.isLabel, if y.isLabel then none else positionShown ys ((ys.take (k + 1)).foldl CLine.moves none))
    rw [← shownIdx_rows ys ys 0 none row, ← hw, ← w1, List.map_map, List.map_map]
    · refine List.map_congr_left fun w hm => ?_
      obtain ⟨y, h1, h2⟩ := hrow w hm
      show _ = row w.2.1
      unfold row
      rw [h1]
      exact h2
    · intro j x hj _
      unfold row
      rw [Nat.zero_add, hj]
  rw [this, shownOf_directives ys ys, hys, ← shownOf_directives ys xs]
  exact shownOf_all (positionShown_directives hys) xs none

/-- C102: text mode ends on such code, unless there is a circle with as many references from code as from data. -/
theorem C102_ends (L : Locale) (f : Filter) (hf : UsualFilter f) (xs : List CLine) (hx : ∀ x ∈ xs, x.Wf) (hn : NoCircle xs)
    (o : Order) (v : List Str) : ∃ n r, (TParser.init f).fromStream L o n (unlines (xs.map CLine.render)) v = some r := by
  letI := recognizers
  exact C41_balanced_partial L f _ o v (no_chain hf hx hn)

/-- C102: there is no circle if data mentions no labels. -/
theorem C102_no_tables (xs : List CLine) (hx : ∀ x ∈ xs, x.Wf) (hn : NoTables xs) : NoCircle xs := by
  refine noCircle_of fun a b hm => ?_
  obtain ⟨before, nt, inside, x, after, e, h1, h2, -⟩ := hm
  have hxm : x ∈ xs := by rw [e]; simp
  rw [hn x hxm ((data_seen (hx x hxm)).2 h1).2.2] at h2
  cases h2

/-- C102: there is no circle if there are only jump tables: the labels that data mentions are internal, and directly below them there is
neither data nor a weak declaration. -/
theorem C102_jump_tables (xs : List CLine) (h : ∀ x ∈ xs, x.isData = true → ∀ a ∈ mentioned x.text, Internal a ∧
      ∀ before note inside y after, xs = before ++ .label a note :: inside ++ y :: after → Unbroken inside →
        y.isData = false ∧ ∀ g, ¬ DeclaresWeak y.text g) : NoCircle xs := by
  refine noCircle_of fun a b hm c hc => ?_
  obtain ⟨before, nt, inside, x, after, e, h1, h2, -⟩ := hm
  obtain ⟨hi, hb⟩ := h x (by rw [e]; simp) h1 a h2
  rcases hc with ⟨_, _, _, _, _, _, _, _, hi', _⟩ | ⟨before, nt, inside, y, after, e, h3, h4⟩ | ⟨before, nt, inside, y, after, e, h3, -, h4⟩
  · exact hi' hi
  · exact (hb _ _ _ _ _ e h4).2 _ h3
  · rcases h4 with h4 | ⟨h4, -⟩
    · rw [(hb _ _ _ _ _ e h4).1] at h3
      cases h3
    · exact h4 hi

/-- C102 for the program: with the options `-outputtext`, `-directives` and `-comment_only` it ends and prints the labels,
instructions and data of the code. -/
theorem C102_program (e : Env) (xs : List CLine) (hx : ∀ x ∈ xs, x.Wf) (hin : requestedInput e = unlines (xs.map CLine.render))
    (hl : e.localeOk = true) (hi : hasInput e.args) (h1 : b! "-outputtext" ∈ e.args) (h2 : b! "-directives" ∈ e.args)
    (h3 : b! "-comment_only" ∈ e.args)
    (h4 : ∀ a ∈ [b! "-binary", b! "-unused_labels", b! "-library_functions", b! "-whitespace"], a ∉ e.args)
    (hd : b! "-nocompat" ∉ e.args → ∀ x ∈ xs, x.shows = true → ¬ StartsWithOneOf dataDirectives x.text) :
    (NoCircle xs → ∃ n r, mainProgram e n = some r) ∧
    ∀ n r, mainProgram e n = some r → r.exit = 0 ∧ r.stdout = unlines ((xs.filter CLine.shows).map CLine.text) := by
  have hf : UsualFilter (requestedFilter e.args) :=
    ⟨by simp [requestedFilter, h2], by simp [requestedFilter, h3], by simpa [requestedFilter] using h4 _ (by simp),
     by simpa [requestedFilter] using h4 b! "-library_functions" (by simp), by simpa [requestedFilter] using h4 b! "-whitespace" (by simp)⟩
  have hb := h4 b! "-binary" (by simp)
  constructor
  · intro hn
    letI := recognizers
    refine C71_ends e fun _ => ?_
    rw [hin]
    exact no_chain hf hx hn
  · intro n r h
    obtain ⟨h0, p, hp, k1, -⟩ := C48_text e n hl hi hb r h
    rw [if_pos h1] at k1
    rw [hin] at hp
    exact ⟨h0, k1.trans (C102_compiled e.L _ hf xs hx (fun hc => hd (by simpa [requestedFilter] using hc)) p hp).2⟩

/-! ### A sample -/

def compiledSample : List CLine :=
  [.directive b! ".file" b! "\t" b! "\"t.c\"", .block b! ".text" [] [], .directive b! ".globl" b! "\t" b! "f",
   .directive b! ".type" b! "\t" b! "f, @function", .label b! "f" b! "\t# @f", .file b! " " 1 (some b! "/src") b! "t.c" b! " md5 0x12", .loc b! " " 1 1 (some 12) [],
   .directive b! ".cfi_startproc" [] [], .comment b! "   \t" b! "//" b! " body", .loc b! " " 1 2 (some 10) b! " view .LVU1", .instr b! "leal" b! "\t" b! "(%rdi,%rdi), %eax\t# x",
   .loc b! " " 1 3 none b! " is_stmt 0", .directive b! ".loc" b! "\t" b! "0 9 9", .instr b! "ret" [] [], .block b! ".cfi_endproc" [] [], .label b! ".LC0" [], .data b! ".string" b! "\t" b! "\"abc\""]

theorem compiledSample_wf : ∀ x ∈ compiledSample, x.Wf := by
  have sym : ∀ {w : Str}, (∀ c ∈ w, Letter c ∨ Digit c ∨ c = c! '_' ∨ c = c! '.' ∨ c = c! '$') → ∀ c ∈ w, SymbolChar c := fun h => h
  have dir : ∀ w sep args, Spaced sep args → (∀ c ∈ w, SymbolChar c) → (∀ d ∈ dataDirectives, ¬ d <+: c! '.' :: w) →
      c! '.' :: w ∉ [b! ".stabn", b! ".dbg", b! ".d2line", b! ".d2file"] → (c! '.' :: w = b! ".file" → ∀ c ∈ args.head?, ¬ Digit c) →
      (c! '.' :: w = b! ".loc" → ∃ r, args = c! '0' :: r ∧ ∀ c ∈ r.head?, ¬ Digit c) →
      (CLine.directive (c! '.' :: w) sep args).Usual := fun w sep args h1 h2 h3 h4 h5 h6 => ⟨h1, ⟨w, rfl, h2⟩, h3, h4, h5, h6⟩
  have wf : ∀ x : CLine, x.Usual → (x.isBlock = false → ∀ w ∈ [b! ".cfi_endproc", b! ".data", b! ".text", b! ".section"], occurs w x.text = false) →
      (x.isDirective = false → occurs b! ".cfi_startproc" x.text = false) → (x.shows = false → occurs b! ".inst" x.text = false) →
      (∀ c ∈ x.text.getLast?, c ≠ c! '=' ∧ c ≠ c! '(') → x.Wf := fun x a b c d e => ⟨a, b, c, d, e⟩
  have stmt : ∀ (bs : Str) (d : Byte) (r : List Byte), b! " is_stmt 0" = bs ++ d :: r → Blanks bs → ¬ (48 ≤ d ∧ d ≤ 57) := by
    intro bs d r e hb
    rcases bs with _ | ⟨b1, _ | ⟨b2, bs⟩⟩
    · simp only [List.nil_append, List.cons.injEq] at e; rw [← e.1]; decide
    · simp only [List.cons_append, List.nil_append, List.cons.injEq] at e; rw [← e.2.1]; decide
    · simp only [List.cons_append, List.cons.injEq] at e
      have := hb b2 (by simp)
      rw [← e.2.1] at this
      exact absurd this (by unfold Blank; decide)
  unfold compiledSample
  simp only [List.forall_mem_cons]
  refine ⟨?_, ?_, ?_, ?_, ?_, ?_, ?_, ?_, ?_, ?_, ?_, ?_, ?_, ?_, ?_, ?_, ?_, fun x hx => by cases hx⟩
  all_goals refine wf _ ?_ (by decide +kernel) (by decide +kernel) (by decide +kernel) (by decide +kernel)
  all_goals unfold CLine.Usual
  all_goals try unfold Spaced
  all_goals try unfold SymbolChar
  all_goals try unfold Letter
  all_goals try unfold Digit
  all_goals first
    | exact ⟨by decide, by decide, .inl rfl⟩
    | exact ⟨by decide, by decide, .inr ⟨b! "\t", b! " @f", rfl, by decide, by decide⟩⟩
    | decide +kernel
    | exact ⟨by decide, ⟨_, rfl, by decide⟩, by decide, by decide, by decide, fun h => absurd h (by decide)⟩
    | exact ⟨by decide, ⟨_, rfl, by decide⟩, by decide, by decide, by decide, fun _ => ⟨_, rfl, by decide⟩⟩
    | exact ⟨by decide, by decide, by decide, by decide, by decide, by decide, by decide, by decide, by decide, fun h => absurd h (by decide)⟩
    | exact ⟨by decide, by decide, by decide, by decide, by decide, by decide, by decide, by decide, by decide, fun _ => stmt⟩
    | exact ⟨by decide, _, _, rfl, by decide, by decide⟩

/-- The sample, and what is shown of it. -/
example : unlines (compiledSample.map CLine.render) =
    b! "\t.file\t\"t.c\"\n" ++ b! "\t.text\n" ++ b! "\t.globl\tf\n" ++ b! "\t.type\tf, @function\n" ++ b! "f:\t# @f\n" ++
    b! "\t.file 1 \"/src\" \"t.c\" md5 0x12\n" ++ b! "\t.loc 1 1 12\n" ++ b! "\t.cfi_startproc\n" ++ b! "   \t// body\n" ++ b! "\t.loc 1 2 10 view .LVU1\n" ++
    b! "\tleal\t(%rdi,%rdi), %eax\t# x\n" ++ b! "\t.loc 1 3 is_stmt 0\n" ++ b! "\t.loc\t0 9 9\n" ++ b! "\tret\n" ++ b! "\t.cfi_endproc\n" ++ b! ".LC0:\n" ++
    b! "\t.string\t\"abc\"\n" := by decide +kernel

example : shownOf compiledSample none compiledSample =
    [(b! "f:      # @f", true, none), (b! "        leal    (%rdi,%rdi), %eax   # x", false, some (b! "/src/t.c", 2, 10)),
     (b! "        ret", false, some (b! "/src/t.c", 3, 0)), (b! ".LC0:", true, none), (b! "        .string \"abc\"", false, none)] := by
  decide +kernel

example : ∃ p, TextResult Locale.utf8 { directives := true, commentOnly := true } (unlines (compiledSample.map CLine.render)) p := by
  obtain ⟨p, hp, -⟩ := textRun_exists (f := { directives := true, commentOnly := true })
    (s := unlines (compiledSample.map CLine.render)) (P := fun _ => True) (by decide +kernel)
  exact ⟨p, hp⟩

example : UsualFilter { directives := true, commentOnly := true } := ⟨rfl, rfl, rfl, rfl, rfl⟩

example : NoTables compiledSample := by
  intro x hx
  rw [← isDataDefn_iff]
  exact (by decide +kernel : ∀ x ∈ compiledSample, isDataDefn x.text = true → mentioned x.text = []) x hx

/-- Code with a jump table. -/
def tableSample : List CLine :=
  [.label b! "f" [], .instr b! "jmp" b! "\t" b! "*.L4(,%rdi,8)", .block b! ".section" b! "\t" b! ".rodata", .label b! ".L4" [],
   .data b! ".quad" b! "\t" b! ".L5", .block b! ".text" [] [], .label b! ".L5" [], .instr b! "ret" [] []]

example : ∃ x ∈ tableSample, x.isData = true ∧ mentioned x.text = [b! ".L5"] :=
  ⟨.data b! ".quad" b! "\t" b! ".L5", by decide, by decide, by decide +kernel⟩

example : NoCircle tableSample := by
  apply C102_jump_tables
  intro x hx hd a ha
  obtain rfl : a = b! ".L5" := by
    have := (by decide +kernel : ∀ x ∈ tableSample, x.isData = true → ∀ a ∈ mentioned x.text, a = b! ".L5") x hx hd a ha
    exact this
  refine ⟨⟨_, _, rfl, .inl rfl⟩, fun before note inside y after e hu => ?_⟩
  have hy : y = .instr b! "ret" [] [] := by
    unfold tableSample at e
    rcases before with _ | ⟨_, _ | ⟨_, _ | ⟨_, _ | ⟨_, _ | ⟨_, _ | ⟨_, _ | ⟨_, before⟩⟩⟩⟩⟩⟩⟩ <;> simp [List.cons_eq_append_iff] at e
    rcases e with ⟨-, -, -, -, -, -, -, e⟩
    rcases inside with _ | ⟨_, inside⟩ <;> simp at e
    exact e.1
  subst hy
  refine ⟨rfl, fun g hw => ?_⟩
  have hc : Contains (CLine.instr b! "ret" [] []).text b! ".weak" := by
    rcases hw with ⟨bs, kw, bs', r, -, h2, -, -, -, e⟩ | ⟨⟨bs, kw, bs', r, -, h2, -, -, -, e⟩, -⟩
    · rw [List.mem_singleton.1 h2] at e
      exact ⟨bs, b! "ext" ++ bs' ++ g ++ r, by rw [e]; simp⟩
    · rw [List.mem_singleton.1 h2] at e
      exact ⟨bs, bs' ++ g ++ r, by rw [e]; simp⟩
  have := (by decide +kernel : occurs b! ".weak" (CLine.instr b! "ret" [] []).text = false)
  rw [(occurs_iff _ _).2 hc] at this
  cases this

/-- The program on the sample. -/
example : mainProgram (sampleEnv [b! "-stdin", b! "-outputtext", b! "-directives", b! "-comment_only", b! "-nocompat"]
    (unlines (compiledSample.map CLine.render))) 100 =
    some ⟨b! "f:      # @f\n" ++ b! "        leal    (%rdi,%rdi), %eax   # x\n" ++ b! "        ret\n" ++ b! ".LC0:\n" ++ b! "        .string \"abc\"\n", 0, none⟩ := by
  decide +kernel

end AsmParser
