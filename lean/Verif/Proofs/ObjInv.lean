/-
Helper lemmas: invariants of the objdump parser over its input.
-/
import Verif.Proofs.ObjStep
import Verif.Spec.Objdump

namespace AsmParser

/-! ### Generic fold facts -/

theorem feed_stop {L : Locale} {p : OParser} (h : p.st.stopParsing = true) (c : Byte) : p.feed L c = p := by
  simp [OParser.feed, h]

theorem foldl_stop {L : Locale} {p : OParser} (h : p.st.stopParsing = true) (s : Str) :
    s.foldl (OParser.feed L) p = p := by
  induction s with
  | nil => rfl
  | cons c cs ih => simp [feed_stop h, ih]

theorem feed_cr (L : Locale) (p : OParser) : p.feed L 13 = p := by
  simp [OParser.feed]

theorem foldl_cr (L : Locale) (s : Str) (p : OParser) :
    (s.filter (· != 13)).foldl (OParser.feed L) p = s.foldl (OParser.feed L) p := by
  induction s generalizing p with
  | nil => rfl
  | cons c cs ih =>
    by_cases h : c = 13
    · subst h; simp [feed_cr, ih]
    · simp [h, ih]

/-- The state in which the loop of a fresh parser starts. -/
def start (f : Filter) : OParser := { filter := f, st := { inAddress := true } }

theorem objParse_eq (L : Locale) (f : Filter) (s : Str) :
    objParse L f s = s.foldl (OParser.feed L) (start f) := rfl

theorem objParse_append (L : Locale) (f : Filter) (s t : Str) :
    objParse L f (s ++ t) = t.foldl (OParser.feed L) (objParse L f s) := by
  simp [objParse_eq]

/-- Induction over the input. -/
theorem objParse_induct {L : Locale} {f : Filter} {P : OParser → Prop} (h0 : P (start f))
    (hstep : ∀ p c, P p → p.st.stopParsing = false → P (p.feed L c)) (s : Str) : P (objParse L f s) := by
  rw [objParse_eq]
  suffices ∀ p, P p → P (s.foldl (OParser.feed L) p) from this _ h0
  induction s with
  | nil => intro p hp; exact hp
  | cons c cs ih =>
    intro p hp
    cases hs : p.st.stopParsing
    · exact ih _ (hstep p c hp hs)
    · rw [foldl_stop hs]; exact hp

/-! ### `feed` by cases -/

theorem feed_cases {L : Locale} {p : OParser} {c : Byte} {P : OParser → Prop}
    (hns : p.st.stopParsing = false) (same : P p) (eol : c = 10 → P p.eol)
    (step : c ≠ 10 → c ≠ 13 → p.st.skipRestOfTheLine = false →
      P { p with st := p.st.step L p.filter c }) : P (p.feed L c) := by
  unfold OParser.feed
  simp only [hns, Bool.false_eq_true, ↓reduceIte]
  split
  · exact same
  split
  · rename_i h; exact eol (by simpa using h)
  split
  · exact same
  · rename_i h1 h2 h3
    exact step (by simpa using h2) (by simpa using h1) (by simpa using h3)

/-! ### `label` by cases -/

/-- The label text that `label` extracts from the text of a line. -/
def labelText (t : Str) : Str := (getLabelFromObjdumpLabel t).getD t

/-- `maybeRemoveLastFunction`, if the filter asks for it. -/
def OParser.prune (p : OParser) : OParser :=
  if p.filter.libraryFunctions then p.maybeRemoveLastFunction else p

theorem maybeRemove_frame (p : OParser) :
    p.maybeRemoveLastFunction = { p with
      lines := p.maybeRemoveLastFunction.lines
      labels := p.maybeRemoveLastFunction.labels
      st := { p.st with ub := p.maybeRemoveLastFunction.st.ub } } := by
  unfold OParser.maybeRemoveLastFunction
  cases p.labels.getLast? with
  | none => rfl
  | some x =>
    dsimp only
    by_cases h : (p.lines.drop (x.2 - 1)).any (fun l => l.source.isUsercode) = true
    · simp only [h, ↓reduceIte]
    · simp only [h]; rfl

theorem prune_frame (p : OParser) :
    p.prune = { p with
      lines := p.prune.lines, labels := p.prune.labels, st := { p.st with ub := p.prune.st.ub } } := by
  unfold OParser.prune
  split
  · exact maybeRemove_frame p
  · rfl

theorem maybeRemove_congr (p : OParser) (t : Str) :
    { p with st := { p.st with text := t } }.maybeRemoveLastFunction =
      { p.maybeRemoveLastFunction with st := { p.maybeRemoveLastFunction.st with text := t } } := by
  unfold OParser.maybeRemoveLastFunction
  dsimp only
  cases p.labels.getLast? with
  | none => rfl
  | some x => dsimp only; split <;> rfl

theorem prune_congr (p : OParser) (t : Str) :
    { p with st := { p.st with text := t } }.prune =
      { p.prune with st := { p.prune.st with text := t } } := by
  unfold OParser.prune
  dsimp only
  split
  · exact maybeRemove_congr p t
  · rfl

/-- `label` when the text is not empty: ignored function. -/
theorem label_ignored {p : OParser} (h : p.st.text ≠ [])
    (hi : shouldIgnoreFunction (labelText p.st.text) p.filter = true) :
    p.label = { p.prune with st := { p.st with
      text := labelText p.st.text, ub := p.prune.st.ub, ignoreUntilNextLabel := true } } := by
  have key : p.label = (let q := { p with st := { p.st with text := labelText p.st.text } }.prune
      let q := { q with st := { q.st with ignoreUntilNextLabel := shouldIgnoreFunction q.st.text q.filter } }
      if q.st.ignoreUntilNextLabel then q
      else { q with
        st := { q.st with
          previousLabel := q.st.text
          currentLine := { q.st.currentLine with label := q.st.text, isLabel := true }
          text := q.st.text ++ b! ":" }
        labels := q.labels ++ [(q.st.text, q.lines.length + 1)] }) := by
    unfold OParser.label labelText OParser.prune
    simp only [List.isEmpty_iff, h, ↓reduceIte]
    cases getLabelFromObjdumpLabel p.st.text <;> rfl
  rw [key, prune_congr, prune_frame p]
  simp [hi]

/-- `label` when the text is not empty: a function that is kept. -/
theorem label_kept {p : OParser} (h : p.st.text ≠ [])
    (hi : shouldIgnoreFunction (labelText p.st.text) p.filter = false) :
    p.label = { p.prune with
      st := { p.st with
        text := labelText p.st.text ++ b! ":", ub := p.prune.st.ub, ignoreUntilNextLabel := false
        previousLabel := labelText p.st.text
        currentLine := { p.st.currentLine with label := labelText p.st.text, isLabel := true } }
      labels := p.prune.labels ++ [(labelText p.st.text, p.prune.lines.length + 1)] } := by
  have key : p.label = (let q := { p with st := { p.st with text := labelText p.st.text } }.prune
      let q := { q with st := { q.st with ignoreUntilNextLabel := shouldIgnoreFunction q.st.text q.filter } }
      if q.st.ignoreUntilNextLabel then q
      else { q with
        st := { q.st with
          previousLabel := q.st.text
          currentLine := { q.st.currentLine with label := q.st.text, isLabel := true }
          text := q.st.text ++ b! ":" }
        labels := q.labels ++ [(q.st.text, q.lines.length + 1)] }) := by
    unfold OParser.label labelText OParser.prune
    simp only [List.isEmpty_iff, h, ↓reduceIte]
    cases getLabelFromObjdumpLabel p.st.text <;> rfl
  rw [key, prune_congr, prune_frame p]
  simp [hi]

theorem label_nil {p : OParser} (h : p.st.text = []) :
    p.label = { p with st := { p.st with inLabel := false } } := by
  simp [OParser.label, h]

/-! ### `eol` by cases -/

/-- Every outcome of the end of a line.  `t` is the text of the line. -/
theorem eol_cases {p : OParser} {P : OParser → Prop}
    (plain_none : (p.st.inLabel = true → p.st.text = []) →
      (p.st.ignoreUntilNextLabel = true ∨ p.st.inSourceRefLineNumber = false ∧ p.st.text = []) →
      P { p with totalLines := p.totalLines + 1, st := p.st.commonReset })
    (plain_src : (p.st.inLabel = true → p.st.text = []) →
      p.st.ignoreUntilNextLabel = false → p.st.inSourceRefLineNumber = true →
      P { p with totalLines := p.totalLines + 1, st := p.st.updateSourceRefLineNumber.commonReset })
    (plain_line : p.st.inLabel = false → p.st.ignoreUntilNextLabel = false →
      p.st.inSourceRefLineNumber = false → p.st.text ≠ [] → p.lines.length < maxLines →
      P { p with totalLines := p.totalLines + 1, lines := p.lines ++ [p.st.finishLine],
                 st := p.st.commonReset })
    (plain_stop : p.st.inLabel = false → p.st.ignoreUntilNextLabel = false →
      p.st.inSourceRefLineNumber = false → p.st.text ≠ [] → ¬ p.lines.length < maxLines →
      P { p with totalLines := p.totalLines + 1, lines := p.lines ++ [markerLine],
                 st := { p.st with stopParsing := true }.commonReset })
    (label_ignored : p.st.inLabel = true → p.st.text ≠ [] →
      shouldIgnoreFunction (labelText p.st.text) p.filter = true →
      P { p.prune with
          totalLines := p.totalLines + 1
          st := { p.st with ub := p.prune.st.ub, ignoreUntilNextLabel := true }.commonReset })
    (label_src : p.st.inLabel = true → p.st.text ≠ [] →
      shouldIgnoreFunction (labelText p.st.text) p.filter = false → p.st.inSourceRefLineNumber = true →
      P { p.prune with
          totalLines := p.totalLines + 1
          labels := p.prune.labels ++ [(labelText p.st.text, p.prune.lines.length + 1)]
          st := { p.st with
            text := labelText p.st.text ++ b! ":", ub := p.prune.st.ub, ignoreUntilNextLabel := false,
            previousLabel := labelText p.st.text }.updateSourceRefLineNumber.commonReset })
    (label_line : p.st.inLabel = true → p.st.text ≠ [] →
      shouldIgnoreFunction (labelText p.st.text) p.filter = false → p.st.inSourceRefLineNumber = false →
      p.prune.lines.length < maxLines →
      P { p.prune with
          totalLines := p.totalLines + 1
          labels := p.prune.labels ++ [(labelText p.st.text, p.prune.lines.length + 1)]
          lines := p.prune.lines ++ [{ p.st.currentLine with
            text := labelText p.st.text ++ b! ":", sect := p.st.currentSection,
            label := labelText p.st.text, isLabel := true, source := p.st.currentSourceRef }]
          st := { p.st with ub := p.prune.st.ub, ignoreUntilNextLabel := false,
                            previousLabel := labelText p.st.text }.commonReset })
    (label_stop : p.st.inLabel = true → p.st.text ≠ [] →
      shouldIgnoreFunction (labelText p.st.text) p.filter = false → p.st.inSourceRefLineNumber = false →
      ¬ p.prune.lines.length < maxLines →
      P { p.prune with
          totalLines := p.totalLines + 1
          labels := p.prune.labels ++ [(labelText p.st.text, p.prune.lines.length + 1)]
          lines := p.prune.lines ++ [markerLine]
          st := { p.st with ub := p.prune.st.ub, ignoreUntilNextLabel := false, stopParsing := true,
                            previousLabel := labelText p.st.text }.commonReset }) :
    P p.eol := by
  unfold OParser.eol
  have prune_tot : ∀ n, ({ p with totalLines := n } : OParser).prune = { p.prune with totalLines := n } := by
    intro n
    unfold OParser.prune OParser.maybeRemoveLastFunction
    dsimp only
    split
    · cases p.labels.getLast? with
      | none => rfl
      | some x => dsimp only; split <;> rfl
    · rfl
  by_cases hl : p.st.inLabel = true
  · by_cases ht : p.st.text = []
    · simp only [hl, ↓reduceIte]
      rw [label_nil (p := { p with totalLines := p.totalLines + 1 }) ht]
      by_cases hi : p.st.ignoreUntilNextLabel = true
      · have := plain_none (fun _ => ht) (.inl hi)
        simpa [OParser.eolTail, hi, OState.commonReset] using this
      · have hi := Bool.eq_false_of_ne hi
        by_cases hs : p.st.inSourceRefLineNumber = true
        · have := plain_src (fun _ => ht) hi hs
          simpa [OParser.eolTail, hi, hs, OState.commonReset, updateSourceRef_eq, srcUpd, srcUb] using this
        · have hs := Bool.eq_false_of_ne hs
          have := plain_none (fun _ => ht) (.inr ⟨hs, ht⟩)
          simpa [OParser.eolTail, hi, hs, ht, OState.commonReset] using this
    · simp only [hl, ↓reduceIte]
      cases hi : shouldIgnoreFunction (labelText p.st.text) p.filter
      · rw [label_kept (p := { p with totalLines := p.totalLines + 1 }) ht hi, prune_tot]
        by_cases hs : p.st.inSourceRefLineNumber = true
        · have := label_src hl ht hi hs
          rw [prune_frame p] at this ⊢
          simpa [OParser.eolTail, hs, OState.commonReset, updateSourceRef_eq, srcUpd, srcUb] using this
        · have hs := Bool.eq_false_of_ne hs
          by_cases hm : p.prune.lines.length < maxLines
          · have := label_line hl ht hi hs hm
            rw [prune_frame p] at this ⊢
            simpa [OParser.eolTail, hs, OState.commonReset, hm, OState.finishLine] using this
          · have := label_stop hl ht hi hs hm
            rw [prune_frame p] at this ⊢
            simpa [OParser.eolTail, hs, OState.commonReset, hm, markerLine, truncatedText] using this
      · rw [AsmParser.label_ignored (p := { p with totalLines := p.totalLines + 1 }) ht hi, prune_tot]
        have := label_ignored hl ht hi
        rw [prune_frame p] at this ⊢
        simpa [OParser.eolTail, OState.commonReset] using this
  · have hl := Bool.eq_false_of_ne hl
    simp only [hl, Bool.false_eq_true, ↓reduceIte]
    by_cases hi : p.st.ignoreUntilNextLabel = true
    · have := plain_none (fun h => by simp [hl] at h) (.inl hi)
      simpa [OParser.eolTail, hi] using this
    have hi := Bool.eq_false_of_ne hi
    by_cases hs : p.st.inSourceRefLineNumber = true
    · have := plain_src (fun h => by simp [hl] at h) hi hs
      simpa [OParser.eolTail, hi, hs] using this
    have hs := Bool.eq_false_of_ne hs
    by_cases ht : p.st.text = []
    · have := plain_none (fun h => by simp [hl] at h) (.inr ⟨hs, ht⟩)
      simpa [OParser.eolTail, hi, hs, ht] using this
    · by_cases hm : p.lines.length < maxLines
      · have := plain_line hl hi hs ht hm
        simpa [OParser.eolTail, hi, hs, ht, hm] using this
      · have := plain_stop hl hi hs ht hm
        simpa [OParser.eolTail, hi, hs, ht, hm, markerLine, truncatedText] using this

end AsmParser
