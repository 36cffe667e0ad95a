/-
Helper lemmas: reading several inputs with the same text-mode parser.
-/
import Verif.Spec.Resume
import Verif.Proofs.Compat
import Verif.Proofs.Append

namespace AsmParser

attribute [local irreducible] Re.search Re.fullMatch

variable [Recognizers]

/-- What is known between two lines. -/
structure Between (f : Filter) (sc : Scan) (p : TParser) : Prop where
  core : ReadCore False sc p
  blanks : Blanks p.st.text
  calm : sc.carry ≠ [] → f.commentOnly = true → sc.inside = false
  data : ∀ l ∈ p.lines, l.isData = true → isDataDefn l.text = true
  table : TableOk p.lines p.labelsDefined

theorem between_step (L : Locale) (f : Filter) (sc : Scan) (p : TParser) (l : Str) (hf : p.filter = f) (hb : Basic p)
    (h : Between f sc p) (hs : EolStep L (p.addText l) ((p.addText l).eol L)) :
    Between f (Scan.line f sc l) ((p.addText l).eol L) := by
  refine ⟨readCore_step False L f sc p l hf hb h.core hs, carry_step hs, ?_, ?_, ?_⟩
  · unfold Scan.line
    simp only
    split
    · intro hc; exact absurd rfl hc
    · rename_i h1
      split
      · intro _ hco
        show sc.inside = false
        rw [hco, Bool.true_and, Bool.or_eq_true, not_or] at h1
        simpa using h1.1
      · intro hc
        refine absurd ?_ hc
        exact (Scan.see_fields f _ _ _).2.2.1
  · rcases hs.lines with ⟨-, am, -, -⟩ | ⟨l', -, -, eq, -, -⟩ | ⟨ls, am, ln, eq, kept⟩
    · exact am.forall (fun l => Iff.rfl) h.data
    · rw [eq]
      intro x hx
      rcases List.mem_append.1 hx with hx | hx
      · exact h.data x hx
      · rw [List.mem_singleton.1 hx]
        intro h'; exact absurd h' (by simp)
    · rw [eq]
      intro x hx
      rcases List.mem_append.1 hx with hx | hx
      · exact am.forall (P := fun l => l.isData = true → isDataDefn l.text = true) (fun l => Iff.rfl) h.data x hx
      · rw [List.mem_singleton.1 hx]
        exact fun h' => (kept.data h').1
  · rcases hs.lines with ⟨-, am, ld, -⟩ | ⟨l', -, -, eq, ld, -⟩ | ⟨ls, am, ln, eq, kept⟩
    · rw [ld]; exact h.table.amended am
    · rw [ld, eq]; exact h.table.append _ rfl
    · rw [eq]
      rcases kept.label with ⟨a1, -, -, -, a2⟩ | ⟨a1, -, -, -, -, a2, -⟩
      · rw [a2, show (p.addText l).lines.length = ls.length from am.length]
        exact (h.table.amended am).label ln a1
      · rw [a2]
        exact (h.table.amended am).append ln a1

omit [Recognizers] in
theorem opensComment_blanks {s : Str} (h : s.all (fun c => c = 32 || c = 9) = true) : opensComment s = false := by
  unfold opensComment
  rw [show s.dropWhile (fun c => c = 32 || c = 9) = [] from ?_]
  · rfl
  · induction s with
    | nil => rfl
    | cons c s ih =>
      rw [List.all_cons, Bool.and_eq_true] at h
      rw [List.dropWhile_cons, if_pos h.1, ih h.2]

/-- The end of a call: carried blanks are read once more. -/
theorem between_flush {f : Filter} {sc : Scan} {p q : TParser} (hq : q.st.text ≠ []) (h : Between f sc q)
    (h' : Between f (Scan.line f sc []) p) : Between f sc p := by
  have hc : sc.carry ≠ [] := by rw [← h.core.carry]; exact hq
  have hb : sc.carry.all (fun c => c = 32 || c = 9) = true := by
    rw [← h.core.carry, ← white_scan, blanks_white]
    exact h.blanks
  have hn : (f.commentOnly && (sc.inside || opensComment sc.carry)) = false := by
    rw [opensComment_blanks hb, Bool.or_false]
    cases hco : f.commentOnly with
    | false => rfl
    | true => rw [h.calm hc hco]; rfl
  have e : Scan.line f sc [] = { sc with gaps := sc.gaps ++ [sc.texts.length], shown := sc.shown ++ [[]] } := by
    unfold Scan.line
    simp only [List.append_nil, hn, hb, if_true, Bool.false_eq_true, if_false]
  rw [e] at h'
  refine ⟨⟨h'.core.inside, h'.core.nest, h'.core.carry, h'.core.nv, h'.core.placed, ?_, h.core.blank, h'.core.state, False.elim⟩,
    h'.blanks, h.calm, h'.data, h'.table⟩
  have hs := h'.core.shown
  obtain ⟨x, hx⟩ := h.core.blank hc
  simp only at hs
  rw [hs, hx, collapse_twice]

theorem between_read (L : Locale) (f : Filter) (s : Str) (done : List Str) (p : TParser) (hf : p.filter = f) (hb : Basic p)
    (h : Between f (scanned f done) p) :
    Between f (scanned f (done ++ inputLines s)) (p.readStream L s) ∧ (p.readStream L s).filter = f ∧ Basic (p.readStream L s) := by
  obtain ⟨e, h1, h2, h3, h4⟩ := readFrom L (fun done p => Between f (scanned f done) p ∧ p.filter = f ∧ Basic p)
    (by
      rintro done p l - ⟨h1, h2, h3⟩
      have hs := eol_step L (p.addText l) (basic_addText h3 l)
      rw [scanned_snoc]
      exact ⟨between_step L f _ p l h2 h3 h1 hs, hs.filter.trans h2, hs.basic⟩)
    s [] (by simp) done { p with totalLines := 0 }
    ⟨⟨⟨h.core.inside, h.core.nest, h.core.carry, h.core.nv, h.core.placed, h.core.shown, h.core.blank, h.core.state.congr rfl, False.elim⟩,
      h.blanks, h.calm, h.data, h.table⟩, hf, ⟨hb.own, hb.fname, hb.lib⟩⟩
  rw [addText_nil, ← readStream_eq] at h2 h3 h4
  refine ⟨?_, h3, h4⟩
  rcases h1 with rfl | ⟨rfl, q, hq, h5, -⟩
  · rwa [List.append_nil] at h2
  · rw [scanned_snoc] at h2
    exact between_flush hq h5 h2

omit [Recognizers] in
/-- The parser after a call, compared to the one after reading. -/
theorem fromStream_frame {L : Locale} {o : Order} {n : Nat} {p p' : TParser} {s : Str} {v v' : List Str}
    (h : p.fromStream L o n s v = some (p', v')) :
    ∃ us ls r fl ub, p' = { p.readStream L s with usage := us, lines := r, ub := ub, st := { (p.readStream L s).st with filteredLines := fl } } ∧
      ls.map TLine.noUse = (p.readStream L s).lines.map TLine.noUse ∧
      ∃ sub, List.Sublist sub ls ∧ r = sub.map (p.readStream L s).finishKept ∧
        ((p.readStream L s).filter.unusedLabels = false → sub.filter (fun l => !l.looseData) = ls.filter (fun l => !l.looseData) ∧
          (((p.readStream L s).filter.compatmode && (p.readStream L s).filter.directives) = false → sub = ls)) := by
  unfold TParser.fromStream at h
  split at h
  · exact absurd h (by simp)
  · rename_i q v2 hm
    simp only [Option.some.injEq, Prod.mk.injEq] at h
    obtain ⟨ls, ub, e, h'⟩ := markLabelUsage_frame hm
    obtain ⟨sub, h1, h2, h3⟩ := removeLoop_all q q.lines
    rw [← h.1, e]
    rw [e] at h1 h2 h3
    refine ⟨_, ls, _, _, ub, rfl, h', sub, h1, ?_, h3⟩
    rw [h2]
    exact List.map_congr_left fun l _ => rfl

omit [Recognizers] in
theorem core_fields {a b : TLine} (h : a.core = b.core) : a.isLabel = b.isLabel ∧ a.label = b.label ∧ a.isData = b.isData ∧ a.text = b.text := by
  unfold TLine.core at h
  injection h with h1 h2 h3 h4 h5 h6 h7 h8 h9 h10 h11 h12 h13
  exact ⟨h6, h8, h13, h2⟩

omit [Recognizers] in
theorem TableOk.core {a b : List TLine} {t : List (Str × Nat)} (h : TableOk a t) (e : b.map TLine.core = a.map TLine.core) : TableOk b t := by
  have get : ∀ (i : Nat) (l : TLine), a[i]? = some l → ∃ l' : TLine, b[i]? = some l' ∧ l'.isLabel = l.isLabel ∧ l'.label = l.label := by
    intro i l hl
    have h5 : (a.map TLine.core)[i]? = some l.core := by rw [List.getElem?_map, hl]; rfl
    rw [← e, List.getElem?_map, Option.map_eq_some_iff] at h5
    obtain ⟨l', h6, h7⟩ := h5
    exact ⟨l', h6, (core_fields h7).1, (core_fields h7).2.1⟩
  have get' : ∀ (i : Nat) (l : TLine), b[i]? = some l → ∃ l' : TLine, a[i]? = some l' ∧ l'.isLabel = l.isLabel ∧ l'.label = l.label := by
    intro i l hl
    have h5 : (b.map TLine.core)[i]? = some l.core := by rw [List.getElem?_map, hl]; rfl
    rw [e, List.getElem?_map, Option.map_eq_some_iff] at h5
    obtain ⟨l', h6, h7⟩ := h5
    exact ⟨l', h6, (core_fields h7).1, (core_fields h7).2.1⟩
  refine ⟨fun x hx => ?_, fun l hl hlab => ?_, h.nodup, fun x k hk i l hi hlab hx => ?_⟩
  · obtain ⟨h1, l, h2, h3, h4⟩ := h.sound x hx
    obtain ⟨l', h5, h6, h7⟩ := get _ _ h2
    exact ⟨h1, l', h5, h6.trans h3, h7.trans h4⟩
  · obtain ⟨i, hi⟩ := List.mem_iff_getElem?.1 hl
    obtain ⟨l', h5, h6, h7⟩ := get' _ _ hi
    rw [← h7]
    exact h.complete l' (List.mem_iff_getElem?.2 ⟨i, h5⟩) (h6.trans hlab)
  · obtain ⟨l', h5, h6, h7⟩ := get' _ _ hi
    exact h.last x k hk i l' h5 (h6.trans hlab) (h7.trans hx)

omit [Recognizers] in
/-- A call leaves the lines it has read as they are, apart from sources, references and flags. -/
theorem between_call {L : Locale} {o : Order} {n : Nat} {f : Filter} {sc : Scan} {p p' : TParser} {s : Str} {v v' : List Str}
    (h : p.fromStream L o n s v = some (p', v')) (hf : (p.readStream L s).filter = f) (hb : Basic (p.readStream L s))
    (hr : Between f sc (p.readStream L s)) (hu : f.unusedLabels = false)
    (hd : f.compatmode = true → f.directives = true → ∀ t ∈ sc.shown, ¬ StartsWithOneOf dataDirectives t) :
    Between f sc p' ∧ p'.filter = f ∧ Basic p' ∧ p'.labelsDefined = (p.readStream L s).labelsDefined ∧
      p'.lines.map TLine.core = (p.readStream L s).lines.map TLine.core ∧ p'.ub = (p.readStream L s).ub := by
  have hub : p'.ub = (p.readStream L s).ub := by
    unfold TParser.fromStream at h
    split at h
    · exact absurd h (by simp)
    · rename_i q v2 hm
      simp only [Option.some.injEq, Prod.mk.injEq] at h
      rw [← h.1]
      have : q.ub = (p.readStream L s).filterNonLabels.ub := by
        refine markLoop_ub _ _ _ hm fun a ha => ?_
        have ha' : a ∈ (p.readStream L s).labelsDefined.map (·.1) := (o.perm _ _).mem_iff.1 ha
        obtain ⟨k, h1, h2⟩ := lookup_mem ha'
        obtain ⟨h3, l, h4, -⟩ := hr.table.sound _ h2
        show ((p.readStream L s).labelsDefined.lookup a).getD 0 - 1 < (p.readStream L s).lines.length
        rw [h1]
        exact (List.getElem?_eq_some_iff.1 h4).1
      exact this
  obtain ⟨us, ls, r, fl, ub, rfl, h1, sub, h2, h3, h4⟩ := fromStream_frame h
  rw [hf] at h4
  obtain ⟨h5, h6⟩ := h4 hu
  have hcore1 : ls.map TLine.core = (p.readStream L s).lines.map TLine.core := by
    have e : ∀ ls : List TLine, ls.map TLine.core = (ls.map TLine.noUse).map TLine.core := by
      intro ls; rw [List.map_map]; exact List.map_congr_left fun l _ => rfl
    rw [e, h1, ← e]
  have hsub : sub = ls := by
    by_cases hc : (f.compatmode && f.directives) = false
    · exact h6 hc
    · rw [Bool.not_eq_false, Bool.and_eq_true] at hc
      have all : ∀ l ∈ ls, (!l.looseData) = true := by
        intro l hl
        have hm : l.core ∈ ls.map TLine.core := List.mem_map.2 ⟨l, hl, rfl⟩
        rw [hcore1, List.mem_map] at hm
        obtain ⟨l0, h0, e⟩ := hm
        have e1 : l0.isData = l.isData := (core_fields e).2.2.1
        unfold TLine.looseData
        cases hdt : l.isData with
        | false => rfl
        | true =>
          exfalso
          refine hd hc.1 hc.2 l0.text ?_ ((isDataDefn_iff _).1 (hr.data l0 h0 (e1.trans hdt)))
          have : l0.text ∈ (p.readStream L s).lines.map TLine.text := List.mem_map_of_mem h0
          rw [hr.core.shown] at this
          exact collapse_members _ this
      rw [List.filter_eq_self.2 all, List.filter_eq_self.2 fun l hl => all l (h2.subset hl)] at h5
      exact h5
  have hcore : r.map TLine.core = (p.readStream L s).lines.map TLine.core := by
    rw [← hcore1, h3, hsub, List.map_map]
    exact List.map_congr_left fun l _ => finishKept_core _ l
  have htexts : r.map TLine.text = (p.readStream L s).lines.map TLine.text := by
    have e := congrArg (List.map TLine.text) hcore
    rw [List.map_map, List.map_map] at e
    exact e
  refine ⟨⟨⟨hr.core.inside, hr.core.nest, hr.core.carry, hr.core.nv, hr.core.placed, ?_, hr.core.blank, hr.core.state.congr rfl, False.elim⟩,
    hr.blanks, hr.calm, ?_, hr.table.core hcore⟩, hf, ⟨hb.own, hb.fname, ?_⟩, rfl, hcore, hub⟩
  · exact htexts.trans hr.core.shown
  · intro l hl hdt
    have hm : l.core ∈ r.map TLine.core := List.mem_map.2 ⟨l, hl, rfl⟩
    rw [hcore, List.mem_map] at hm
    obtain ⟨l0, h0, e⟩ := hm
    have := hr.data l0 h0 ((core_fields e).2.2.1.trans hdt)
    rwa [show l0.text = l.text from (core_fields e).2.2.2] at this
  · intro h'
    refine ⟨?_, (hb.lib h').2⟩
    have := congrArg List.length hcore
    rw [(hb.lib h').1, List.length_map] at this
    exact List.length_eq_zero_iff.1 this

theorem between_init (f : Filter) : Between f (scanned f []) (TParser.init f) :=
  ⟨⟨rfl, rfl, rfl, rfl, rfl, rfl, fun h => (h rfl).elim,
    ⟨⟨none, .start, rfl, rfl⟩, fun i name => ⟨fun h => by simp [TParser.init] at h, fun ⟨a, t, b, e, _⟩ => by
      simp [scanned] at e⟩, .inl ⟨rfl, fun t ht => by simp [scanned] at ht⟩, .inl ⟨rfl, fun t ht => by simp [scanned] at ht⟩⟩, False.elim⟩,
    fun c hc => absurd hc (by simp [TParser.init]), fun h => (h rfl).elim, by simp [TParser.init],
    ⟨by simp [TParser.init], by simp [TParser.init], by simp [TParser.init], by simp [TParser.init]⟩⟩

theorem scanned_prefix (f : Filter) (xs ys : List Str) : (scanned f xs).shown <+: (scanned f (xs ++ ys)).shown := by
  unfold scanned
  rw [List.foldl_append]
  exact Scan.lines_prefix f _ _

/-- The state after several calls. -/
theorem between_calls {L : Locale} {f : Filter} {ss : List Str} {p : TParser} (h : TextResults L f ss p) (hu : f.unusedLabels = false)
    (hd : f.compatmode = true → f.directives = true →
      ∀ t ∈ (scanned f (ss.flatMap inputLines)).shown, ¬ StartsWithOneOf dataDirectives t) :
    Between f (scanned f (ss.flatMap inputLines)) p ∧ p.filter = f ∧ Basic p := by
  induction h with
  | start => exact ⟨between_init f, rfl, ⟨rfl, rfl, fun _ => ⟨rfl, rfl⟩⟩⟩
  | call o n v v' _ h' ih =>
    rw [List.flatMap_append, List.flatMap_singleton] at hd ⊢
    obtain ⟨h1, h2, h3⟩ := ih fun a b t ht => hd a b t ((scanned_prefix f _ _).subset ht)
    obtain ⟨h4, h5, h6⟩ := between_read L f _ _ _ h2 h3 h1
    obtain ⟨h7, h8, h9, -⟩ := between_call h' h5 h6 h4 hu hd
    exact ⟨h7, h8, h9⟩

omit [Recognizers] in
theorem inputLinesFrom_noNewline (cur s : Str) (hc : 10 ∉ cur) : ∀ l ∈ inputLinesFrom cur s, 10 ∉ l := by
  induction s generalizing cur with
  | nil =>
    unfold inputLinesFrom
    split
    · simp
    · intro l hl; rw [List.mem_singleton.1 hl]; exact hc
  | cons c s ih =>
    unfold inputLinesFrom
    split
    · intro l hl
      rcases List.mem_cons.1 hl with rfl | hl
      · exact hc
      · exact ih [] (by simp) l hl
    · rename_i h
      exact ih _ (by simp [hc, Ne.symm h])

omit [Recognizers] in
theorem inputLines_noNewline (s : Str) : ∀ l ∈ inputLines s, 10 ∉ l := inputLinesFrom_noNewline [] s (by simp)

omit [Recognizers] in
/-- The lines of pieces of which all but the last have complete lines. -/
theorem inputLines_flatten (ss : List Str) (h : ∀ s ∈ ss.dropLast, s = [] ∨ s.getLast? = some 10) :
    inputLines ss.flatten = ss.flatMap inputLines := by
  induction ss with
  | nil => rfl
  | cons s ss ih =>
    cases ss with
    | nil => simp
    | cons t ts =>
      rw [List.dropLast_cons_of_ne_nil (by simp)] at h
      rw [List.flatten_cons, inputLines_more (h s (by simp)), List.flatMap_cons, ih fun x hx => h x (by simp [hx])]

end AsmParser
