/-
Helper lemmas: the strings binary mode outputs consist of characters of the input.
-/
import Verif.Proofs.ObjRefs
import Verif.Proofs.Ignore

namespace AsmParser

/-- `Q` holds of the characters of the strings kept in the state. -/
structure CharInv (Q : Byte → Prop) (s : OState) : Prop where
  text : ∀ c ∈ s.text, Q c
  sect : ∀ c ∈ s.currentSection, Q c
  file : ∀ c ∈ s.currentSourceRef.file, Q c
  refs : ∀ r ∈ s.currentLine.labels, ∀ c ∈ r.name, Q c

variable {L : Locale} {f : Filter} {Q : Byte → Prop} {s : OState}

theorem CharInv.mono (h : CharInv Q s) {s' : OState} (u : Str) (hu : ∀ c ∈ u, Q c) (h1 : s'.text = s.text ++ u)
    (h2 : s'.currentSection = s.currentSection) (h3 : s'.currentSourceRef.file = s.currentSourceRef.file)
    (h4 : s'.currentLine.labels = s.currentLine.labels) : CharInv Q s' := by
  refine ⟨?_, h2 ▸ h.sect, h3 ▸ h.file, h4 ▸ h.refs⟩
  rw [h1]
  intro c hc
  simp only [List.mem_append] at hc
  exact hc.elim (h.text c) (hu c)

theorem CharInv.clear (h : CharInv Q s) {s' : OState} (h1 : s'.text = [])
    (h2 : s'.currentSection = s.currentSection) (h3 : s'.currentSourceRef.file = s.currentSourceRef.file)
    (h4 : s'.currentLine.labels = s.currentLine.labels) : CharInv Q s' :=
  ⟨by simp [h1], h2 ▸ h.sect, h3 ▸ h.file, h4 ▸ h.refs⟩

theorem mem_appText {t : Str} {c d : Byte} (h : d ∈ appText t c) : d ∈ t ∨ d = c := by
  unfold appText at h
  split at h
  · exact .inl h
  · simpa using h

theorem CharInv.step {c : Byte} (hsp : Q 32) (hc : Q c) (h : CharInv Q s) : CharInv Q (s.step L f c) := by
  have hc1 : ∀ d ∈ [c], Q d := by simpa using hc
  refine step_cases (P := CharInv Q) h ?_ ?_ ?_ ?_ ?_ ?_ ?_ ?_ ?_ ?_ ?_ ?_ ?_ ?_ ?_ ?_ ?_ ?_ ?_ ?_ ?_
  · exact ⟨fun d hd => (mem_appText hd).elim (h.text d) (fun e => e ▸ hc), h.sect, h.file, h.refs⟩
  · intros; exact h.mono [c] hc1 rfl rfl rfl rfl
  · intros; exact h.mono [] (by simp) (by simp) rfl rfl rfl
  · intros; exact h.clear rfl rfl rfl rfl
  · intros; exact h.clear rfl rfl rfl rfl
  · intros; exact ⟨(h.mono (s' := { s with text := s.text ++ [c] }) [c] hc1 rfl rfl rfl rfl).text, by simp, h.file, h.refs⟩
  · intros; exact h.clear rfl rfl rfl rfl
  · intros; exact h.clear rfl rfl rfl rfl
  · intros; exact h.clear rfl rfl rfl rfl
  · intros; exact h.mono (b! "   " ++ [c]) (by simp [hsp, hc]) (by simp) rfl rfl rfl
  · intros; exact h.mono [c] hc1 rfl rfl rfl rfl
  · intros; exact h.mono b! " " (by simpa using hsp) rfl rfl rfl rfl
  · intros; exact ⟨by simp, hc1, h.file, h.refs⟩
  · intros; exact h.clear rfl rfl rfl rfl
  · intros
    refine ⟨h.text, ?_, h.file, h.refs⟩
    intro d hd
    simp only [List.mem_append, List.mem_singleton] at hd
    exact hd.elim (h.sect d) (fun e => e ▸ hc)
  · intros; exact ⟨by simp, h.sect, h.text, h.refs⟩
  · intros
    refine h.clear rfl rfl ?_ rfl
    show (srcUpd s).file = _
    unfold srcUpd
    split
    · rfl
    split <;> rfl
  · intros; exact h.mono [c] hc1 rfl rfl rfl rfl
  · intros; exact h.mono [c] hc1 rfl rfl rfl rfl
  · intros; exact h.mono [c] hc1 rfl rfl rfl rfl
  · intros
    refine ⟨(h.mono (s' := { s with text := s.text ++ [c] }) [c] hc1 rfl rfl rfl rfl).text, h.sect, h.file, ?_⟩
    intro r hr
    simp only [refLabels] at hr
    split at hr
    · exact h.refs r hr
    · simp only [List.mem_append, List.mem_singleton] at hr
      rcases hr with hr | rfl
      · exact h.refs r hr
      · exact fun d hd => h.text d (List.mem_of_mem_drop hd)

theorem mem_labelText {t : Str} {d : Byte} (h : d ∈ labelText t) : d ∈ t := by
  unfold labelText getLabelFromObjdumpLabel at h
  split at h
  · exact List.mem_of_mem_drop (List.mem_of_mem_take h)
  · exact h

/-- `Q` holds of the characters of the strings of a line. -/
structure LineChars (Q : Byte → Prop) (l : AsmLine) : Prop where
  text : ∀ c ∈ l.text, Q c
  sect : ∀ c ∈ l.sect, Q c
  file : ∀ c ∈ l.source.file, Q c
  refs : ∀ r ∈ l.labels, ∀ c ∈ r.name, Q c
  label : ∀ c ∈ l.label, Q c

/-- The strings binary mode outputs consist of characters of the input, of `:`, and of characters of the marker. -/
theorem chars_parse' (L : Locale) (f : Filter) (s : Str) (hs : ∀ c ∈ s, c ≠ 10 → c ≠ 13 → Q c)
    (hq : ∀ c ∈ b! ":[truncated; too many lines]", Q c) :
    CharInv Q (objParse L f s).st ∧ ∀ l ∈ (objParse L f s).lines, LineChars Q l := by
  have hsp : Q 32 := hq 32 (by decide)
  have hnil : ∀ c ∈ ([] : Str), Q c := by simp
  refine lines_inv_in (L := L) (f := f) (I := fun _ s => CharInv Q s) (P := LineChars Q) s ?_ ?_ ?_ ?_ ?_ ?_ ?_ ?_
  · exact ⟨hnil, hnil, hnil, by simp [start]⟩
  · intro t st c hp _ h _ _ h10 h13
    exact h.step hsp (hs c (hp.subset (by simp)) h10 h13)
  · intros; assumption
  · intro t st u i sp pl _ _ h _
    exact ⟨by simp [OState.commonReset], h.sect, h.file, by simp [OState.commonReset]⟩
  · intro t st _ _ h _ _ _
    refine ⟨by simp [OState.commonReset], ?_, ?_, by simp [OState.commonReset]⟩
    · simp only [OState.commonReset, updateSourceRef_eq]; exact h.sect
    · simp only [OState.commonReset, updateSourceRef_eq]
      have : (srcUpd st).file = st.currentSourceRef.file := by
        unfold srcUpd
        split
        · rfl
        split <;> rfl
      rw [this]; exact h.file
  · refine ⟨fun c hc => hq c ?_, hnil, hnil, by simp [markerLine], hnil⟩
    exact List.mem_cons_of_mem _ hc
  · intro t st _ hm h hl _ _ _
    have hnl := hm.notLabel
    refine ⟨?_, ?_, ?_, ?_, ?_⟩
    · intro c hc
      simp only [OState.finishLine, hnl, Bool.false_eq_true, ↓reduceIte, List.mem_cons] at hc
      rcases hc with rfl | hc
      · exact hsp
      · exact h.text c hc
    · simp only [OState.finishLine, hnl, Bool.false_eq_true, ↓reduceIte]; exact h.sect
    · simp only [OState.finishLine, hnl, Bool.false_eq_true, ↓reduceIte]; exact h.file
    · intro r hr
      simp only [OState.finishLine, hnl, Bool.false_eq_true, ↓reduceIte, List.mem_map] at hr
      obtain ⟨r', h1, rfl⟩ := hr
      exact h.refs r' h1
    · simp only [OState.finishLine, hnl, Bool.false_eq_true, ↓reduceIte, hm.noLabel]; exact hnil
  · intro t st _ hm h hl _ _
    refine ⟨?_, h.sect, h.file, h.refs, fun c hc => h.text c (mem_labelText hc)⟩
    intro c hc
    simp only [OState.labelLine, List.mem_append, List.mem_singleton] at hc
    rcases hc with hc | rfl
    · exact h.text c (mem_labelText hc)
    · exact hq _ (by decide)

theorem chars_parse (L : Locale) (f : Filter) (s : Str) (hs : ∀ c ∈ s, c ≠ 10 → c ≠ 13 → Q c)
    (hq : ∀ c ∈ b! ":[truncated; too many lines]", Q c) : ∀ l ∈ (objParse L f s).lines, LineChars Q l :=
  (chars_parse' L f s hs hq).2

/-- So do the names in the label table. -/
theorem chars_labels (L : Locale) (f : Filter) (s : Str) (hs : ∀ c ∈ s, c ≠ 10 → c ≠ 13 → Q c)
    (hq : ∀ c ∈ b! ":[truncated; too many lines]", Q c) : ∀ d ∈ (objParse L f s).labels, ∀ c ∈ d.1, Q c := by
  induction s using snoc_induct with
  | nil => simp [objParse_eq, start]
  | snoc t c ih =>
    have hs' : ∀ c ∈ t, c ≠ 10 → c ≠ 13 → Q c := fun c hc => hs c (by simp [hc])
    have hi := (chars_parse' L f t hs' hq).1
    have ih := ih hs'
    rw [objParse_append]
    simp only [List.foldl_cons, List.foldl_nil]
    generalize objParse L f t = p at *
    by_cases hst : p.st.stopParsing = true
    · rw [feed_stop hst]; exact ih
    have new : ∀ k, ∀ d ∈ p.prune.labels ++ [(labelText p.st.text, k)], ∀ c ∈ d.1, Q c := by
      intro k d hd
      simp only [List.mem_append, List.mem_singleton] at hd
      rcases hd with hd | rfl
      · exact ih d (prune_mem_labels hd)
      · exact fun c hc => hi.text c (mem_labelText hc)
    refine feed_cases (P := fun p => ∀ d ∈ p.labels, ∀ c ∈ d.1, Q c) (Bool.eq_false_of_ne hst) ih (fun _ => ?_) (fun _ _ _ => ih)
    refine eol_cases (P := fun p => ∀ d ∈ p.labels, ∀ c ∈ d.1, Q c) ?_ ?_ ?_ ?_ ?_ ?_ ?_ ?_
    · intros; exact ih _ ‹_› _ ‹_›
    · intros; exact ih _ ‹_› _ ‹_›
    · intros; exact ih _ ‹_› _ ‹_›
    · intros; exact ih _ ‹_› _ ‹_›
    · intro _ _ _ d hd; exact ih d (prune_mem_labels hd)
    · intro _ _ _ _; exact new _
    · intro _ _ _ _ _; exact new _
    · intro _ _ _ _ _; exact new _

end AsmParser
