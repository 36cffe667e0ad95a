/-
Helper lemmas: what happens to the lines of text mode after the last one has been read.
-/
import Verif.Proofs.TextRead

namespace AsmParser

/-- The line without what is determined after reading: source, references and usage. -/
def TLine.core (l : TLine) : TLine :=
  { l with source := {}, labels := [], isUsed := false, isUsedThroughAlias := false, isUsedDataThroughAlias := false }

/-- The line without its usage flags. -/
def TLine.noUse (l : TLine) : TLine :=
  { l with isUsed := false, isUsedThroughAlias := false, isUsedDataThroughAlias := false }

theorem markLine_noUse {g : Usage} {o : Order} {n : Nat} {l l' : TLine} {v v' : List Str}
    (h : markLine g o n l v = some (l', v')) : l'.noUse = l.noUse := by
  unfold markLine at h
  split at h
  · exact absurd h (by simp)
  · simp only [Option.some.injEq, Prod.mk.injEq] at h; rw [← h.1]; rfl
  · split at h
    · exact absurd h (by simp)
    · simp only [Option.some.injEq, Prod.mk.injEq] at h; rw [← h.1]; rfl
    · split at h
      · exact absurd h (by simp)
      · simp only [Option.some.injEq, Prod.mk.injEq] at h; rw [← h.1]; rfl
      · simp only [Option.some.injEq, Prod.mk.injEq] at h; rw [← h.1]

theorem markLoop_frame {o : Order} {n : Nat} (names : List Str) (p : TParser) (v : List Str) {p' : TParser} {v' : List Str}
    (h : TParser.markLoop o n names p v = some (p', v')) :
    ∃ ls ub, p' = { p with lines := ls, ub := ub } ∧ ls.map TLine.noUse = p.lines.map TLine.noUse := by
  induction names generalizing p v with
  | nil =>
    simp only [TParser.markLoop, Option.some.injEq, Prod.mk.injEq] at h
    exact ⟨p.lines, p.ub, h.1.symm, rfl⟩
  | cons a names ih =>
    unfold TParser.markLoop at h
    simp only at h
    split at h
    · obtain ⟨ls, ub, e, h'⟩ := ih _ _ h
      exact ⟨ls, ub, e, h'⟩
    · rename_i line hline
      split at h
      · exact absurd h (by simp)
      · rename_i line' v2 hm
        obtain ⟨ls, ub, e, h'⟩ := ih _ _ h
        refine ⟨ls, ub, e, h'.trans ?_⟩
        simp only
        rw [List.map_set, markLine_noUse hm]
        apply List.ext_getElem?
        intro i
        rw [List.getElem?_set]
        split
        · rename_i hi
          subst hi
          simp only [List.getElem?_map, hline, List.length_map]
          have := (List.getElem?_eq_some_iff.1 hline).1
          simp [this]
        · rfl

theorem markLabelUsage_frame {o : Order} {n : Nat} {p : TParser} {v : List Str} {p' : TParser} {v' : List Str}
    (h : p.markLabelUsage o n v = some (p', v')) :
    ∃ ls ub, p' = { p with lines := ls, ub := ub } ∧ ls.map TLine.noUse = p.lines.map TLine.noUse :=
  markLoop_frame _ _ _ h

theorem removeLoop_sublist (p : TParser) (r : RemState) (ls : List TLine) :
    ∃ sub, List.Sublist sub ls ∧ (p.removeLoop r ls).1 = sub.map p.finishKept := by
  induction ls generalizing r with
  | nil => exact ⟨[], .slnil, rfl⟩
  | cons l ls ih =>
    unfold TParser.removeLoop
    simp only
    obtain ⟨sub, h1, h2⟩ := ih (remLabel p.filter p.usage r l).1
    split
    · exact ⟨sub, h1.cons _, h2⟩
    · exact ⟨l :: sub, h1.cons_cons _, by rw [h2]; rfl⟩

/-- Data outside procedures. -/
def TLine.looseData (l : TLine) : Bool := l.isData && !l.source.insideProc

theorem remLabel_off {f : Filter} (h : f.unusedLabels = false) (g : Usage) (r : RemState) (l : TLine) (hr : r.remove = false) :
    (remLabel f g r l).1.remove = false ∧ (remLabel f g r l).2 = false := by
  unfold remLabel
  simp only [h]
  split
  · exact ⟨hr, rfl⟩
  · exact ⟨hr, rfl⟩

/-- `removeLoop` without `unused_labels`. -/
theorem removeLoop_off (p : TParser) (h : p.filter.unusedLabels = false) (r : RemState) (hr : r.remove = false) (ls : List TLine) :
    ∃ sub, List.Sublist sub ls ∧ (p.removeLoop r ls).1 = sub.map p.finishKept ∧
      sub.filter (fun l => !l.looseData) = ls.filter (fun l => !l.looseData) ∧
      ((p.filter.compatmode && p.filter.directives) = false → sub = ls) := by
  induction ls generalizing r with
  | nil => exact ⟨[], .slnil, rfl, rfl, fun _ => rfl⟩
  | cons l ls ih =>
    unfold TParser.removeLoop
    simp only
    obtain ⟨h1, h2⟩ := remLabel_off h p.usage r l hr
    obtain ⟨sub, g1, g2, g3, g4⟩ := ih (remLabel p.filter p.usage r l).1 h1
    split
    · rename_i hd
      unfold remDrop at hd
      rw [h1, h2] at hd
      simp only [Bool.false_or, Bool.and_eq_true] at hd
      refine ⟨sub, g1.cons _, g2, ?_, ?_⟩
      · rw [g3, List.filter_cons_of_neg]
        unfold TLine.looseData
        simp [hd.1.2, hd.2]
      · rw [hd.1.1.1.2, hd.1.1.2]
        exact fun h => absurd h (by simp)
    · refine ⟨l :: sub, g1.cons_cons _, by rw [g2]; rfl, ?_, fun h => by rw [g4 h]⟩
      rw [List.filter_cons, List.filter_cons, g3]

/-- Whatever the filter. -/
theorem removeLoop_all (p : TParser) (ls : List TLine) :
    ∃ sub, List.Sublist sub ls ∧ (p.removeLoop {} ls).1 = sub.map p.finishKept ∧
      (p.filter.unusedLabels = false → sub.filter (fun l => !l.looseData) = ls.filter (fun l => !l.looseData) ∧
        ((p.filter.compatmode && p.filter.directives) = false → sub = ls)) := by
  cases h : p.filter.unusedLabels with
  | true =>
    obtain ⟨sub, h1, h2⟩ := removeLoop_sublist p {} ls
    exact ⟨sub, h1, h2, fun h => absurd h (by simp)⟩
  | false =>
    obtain ⟨sub, h1, h2, h3, h4⟩ := removeLoop_off p h {} rfl ls
    exact ⟨sub, h1, h2, fun _ => ⟨h3, h4⟩⟩

theorem finishKept_core (p : TParser) (l : TLine) : (p.finishKept l).core = l.core := by
  unfold TParser.finishKept
  simp only
  split
  · split <;> rfl
  · rfl

theorem finishKept_labels (p : TParser) (l : TLine) :
    (p.finishKept l).labels = l.labels.filter fun r => (p.labelsDefined.lookup r.name).isSome := by
  unfold TParser.finishKept
  simp only
  split
  · split <;> rfl
  · rfl

/-- The result of a parse in terms of the state after reading. -/
structure Outcome (L : Locale) (f : Filter) (s : Str) (p : TParser) : Prop where
  frame : ∃ us ls lines fl ub, p = { (TParser.init f).readStream L s with
    usage := us, lines := lines, ub := ub
    st := { ((TParser.init f).readStream L s).st with filteredLines := fl } } ∧
    ls.map TLine.noUse = ((TParser.init f).readStream L s).lines.map TLine.noUse ∧
    ∃ sub, List.Sublist sub ls ∧ lines = sub.map ((TParser.init f).readStream L s).finishKept ∧
      (f.unusedLabels = false → sub.filter (fun l => !l.looseData) = ls.filter (fun l => !l.looseData) ∧
        ((f.compatmode && f.directives) = false → sub = ls))

theorem outcome {L : Locale} {o : Order} {n : Nat} {f : Filter} {s : Str} {v v' : List Str} {p : TParser}
    (h : (TParser.init f).fromStream L o n s v = some (p, v')) : Outcome L f s p := by
  unfold TParser.fromStream at h
  split at h
  · exact absurd h (by simp)
  · rename_i q v2 hm
    simp only [Option.some.injEq, Prod.mk.injEq] at h
    obtain ⟨ls, ub, e, h'⟩ := markLabelUsage_frame hm
    obtain ⟨sub, h1, h2, h3⟩ := removeLoop_all q q.lines
    have hf : q.filter = f := by
      rw [e]
      exact (readStream_inv L f (fun _ => True) trivial (fun _ _ _ => trivial) (fun _ _ _ _ _ => trivial) s).2.1
    rw [hf] at h3
    rw [← h.1, e]
    rw [e] at h1 h2 h3
    refine ⟨_, ls, _, _, ub, rfl, h', sub, h1, ?_, h3⟩
    rw [h2]
    exact List.map_congr_left fun l _ => rfl

theorem Outcome.core {L : Locale} {f : Filter} {s : Str} {p : TParser} (h : Outcome L f s p) :
    List.Sublist (p.lines.map TLine.core) (((TParser.init f).readStream L s).lines.map TLine.core) := by
  obtain ⟨us, ls, lines, fl, ub, rfl, h1, sub, h2, h3, -⟩ := h
  simp only
  rw [h3, List.map_map]
  have e1 : sub.map (TLine.core ∘ ((TParser.init f).readStream L s).finishKept) = sub.map TLine.core :=
    List.map_congr_left fun l _ => finishKept_core _ l
  rw [e1]
  have e2 : ls.map TLine.core = ((TParser.init f).readStream L s).lines.map TLine.core := by
    have := congrArg (List.map TLine.core) h1
    rw [List.map_map, List.map_map] at this
    exact this
  rw [← e2]
  exact h2.map _

/-- Nothing is removed after reading. -/
theorem Outcome.all {L : Locale} {f : Filter} {s : Str} {p : TParser} (h : Outcome L f s p) (hu : f.unusedLabels = false)
    (hd : (f.compatmode && f.directives) = false) :
    p.lines.map TLine.core = ((TParser.init f).readStream L s).lines.map TLine.core := by
  obtain ⟨us, ls, lines, fl, ub, rfl, h1, sub, h2, h3, h4⟩ := h
  simp only
  rw [h3, List.map_map, (h4 hu).2 hd]
  have e1 : ls.map (TLine.core ∘ ((TParser.init f).readStream L s).finishKept) = ls.map TLine.core :=
    List.map_congr_left fun l _ => finishKept_core _ l
  rw [e1]
  have := congrArg (List.map TLine.core) h1
  rw [List.map_map, List.map_map] at this
  exact this

/-- Every output line comes from a line that was read. -/
theorem Outcome.mem {L : Locale} {f : Filter} {s : Str} {p : TParser} (h : Outcome L f s p) {l : TLine} (hl : l ∈ p.lines) :
    ∃ l0 ∈ ((TParser.init f).readStream L s).lines, l.core = l0.core ∧
      l.labels = l0.labels.filter (fun r => (p.labelsDefined.lookup r.name).isSome) ∧
      l.source = (((TParser.init f).readStream L s).finishKept l0).source := by
  obtain ⟨us, ls, lines, fl, ub, rfl, h1, sub, h2, h3, -⟩ := h
  simp only at hl ⊢
  rw [h3, List.mem_map] at hl
  obtain ⟨l1, hl1, rfl⟩ := hl
  have hm : l1.noUse ∈ ls.map TLine.noUse := List.mem_map_of_mem (h2.subset hl1)
  rw [h1, List.mem_map] at hm
  obtain ⟨l0, hl0, e⟩ := hm
  have ec : l1.core = l0.core := by
    have := congrArg TLine.core e
    exact this.symm
  have el : l1.labels = l0.labels := (congrArg TLine.labels e).symm
  have es : l1.source = l0.source := (congrArg TLine.source e).symm
  refine ⟨l0, hl0, ?_, ?_, ?_⟩
  · rw [finishKept_core]; exact ec
  · rw [finishKept_labels, el]
  · unfold TParser.finishKept
    simp only [es]
    split
    · split <;> rfl
    · rfl

end AsmParser
