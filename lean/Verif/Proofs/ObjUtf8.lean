/-
Helper lemmas: binary mode copies characters whole.
-/
import Verif.Proofs.Utf8Valid
import Verif.Proofs.ObjRefs
import Verif.Proofs.Ignore

namespace AsmParser

/-- The strings in the state after the input `u`. -/
structure UtfInv (u : Str) (s : OState) : Prop where
  file : ValidUtf8 s.currentSourceRef.file
  sect : s.stopParsing = true ∨ s.skipRestOfTheLine = true ∨ s.inSectionName = false → ValidUtf8 s.currentSection
  name : s.stopParsing = false → s.skipRestOfTheLine = false → s.inSectionName = true → Tracks u s.currentSection
  text : s.stopParsing = true ∨ s.skipRestOfTheLine = true ∨ s.inSectionName = true → ValidUtf8 s.text
  track : s.stopParsing = false → s.skipRestOfTheLine = false → s.inSectionName = false → Tracks u s.text

variable {L : Locale} {f : Filter} {s : OState} {u : Str} {c : Byte}

theorem UtfInv.allText (h : UtfInv u s) (hu : ValidUtf8 u) : ValidUtf8 s.text := by
  cases h1 : s.stopParsing with
  | true => exact h.text (.inl h1)
  | false =>
    cases h2 : s.skipRestOfTheLine with
    | true => exact h.text (.inr (.inl h2))
    | false =>
      cases h3 : s.inSectionName with
      | true => exact h.text (.inr (.inr h3))
      | false => exact (h.track h1 h2 h3).valid hu

theorem UtfInv.allSect (h : UtfInv u s) (hu : ValidUtf8 u) : ValidUtf8 s.currentSection := by
  cases h1 : s.stopParsing with
  | true => exact h.sect (.inl h1)
  | false =>
    cases h2 : s.skipRestOfTheLine with
    | true => exact h.sect (.inr (.inl h2))
    | false =>
      cases h3 : s.inSectionName with
      | false => exact h.sect (.inr (.inr h3))
      | true => exact (h.name h1 h2 h3).valid hu

/-- A state in which all strings are valid, where the input is valid, too. -/
theorem UtfInv.whole {s' : OState} (hu : ValidUtf8 u) (h1 : ValidUtf8 s'.currentSourceRef.file) (h2 : ValidUtf8 s'.currentSection)
    (h3 : ValidUtf8 s'.text) : UtfInv u s' :=
  ⟨h1, fun _ => h2, fun _ _ _ => .of_valid hu h2, fun _ => h3, fun _ _ _ => .of_valid hu h3⟩

/-- One byte appended to the text. -/
theorem UtfInv.snoc (h : UtfInv u s) (hs : s.stopParsing = false) (hk : s.skipRestOfTheLine = false)
    (hn : s.inSectionName = false) {s' : OState} (h1 : s'.text = s.text ++ [c]) (h2 : s'.currentSection = s.currentSection)
    (h3 : s'.currentSourceRef = s.currentSourceRef) (h5 : s'.stopParsing = false)
    (h6 : s'.skipRestOfTheLine = false) (h7 : s'.inSectionName = false) : UtfInv (u ++ [c]) s' := by
  refine ⟨h3 ▸ h.file, fun _ => h2 ▸ h.sect (.inr (.inr hn)), by simp [h7], by simp [h5, h6, h7], fun _ _ _ => ?_⟩
  rw [h1]; exact (h.track hs hk hn).snoc c

theorem isWhitespace_ascii (h : isWhitespace c = true) : c < 128 := by
  simp only [isWhitespace, Bool.or_eq_true, beq_iff_eq] at h
  rcases h with rfl | rfl <;> decide

theorem isHex_ascii (h : isHex c = true) : c < 128 := by
  have : ∀ c : Fin 256, isHex (UInt8.ofFin c) = true → UInt8.ofFin c < 128 := by decide +kernel
  exact this c.toFin h

theorem srcUpd_file_eq (s : OState) : (srcUpd s).file = s.currentSourceRef.file := by
  unfold srcUpd
  split
  · rfl
  split <;> rfl

theorem appText_ascii {t : Str} (hc : c < 128) (ht : ValidUtf8 t) : ValidUtf8 (appText t c) := by
  unfold appText
  split
  · exact ht
  · exact ht.append (.one hc)

theorem appText_high {t : Str} (hc : ¬ c < 128) : appText t c = t ++ [c] := by
  unfold appText
  rw [if_neg]
  intro h
  simp only [Bool.and_eq_true] at h
  exact hc (isWhitespace_ascii h.1)

theorem UtfInv.step_high (hm : Modes s) (hc : ¬ c < 128) (h : UtfInv u s) (hs : s.stopParsing = false)
    (hk : s.skipRestOfTheLine = false) : UtfInv (u ++ [c]) (s.step L f c) := by
  have lit : ∀ {d : Byte}, c = d → d < 128 → False := fun e hd => hc (e ▸ hd)
  have ws : isWhitespace c = true → False := fun h => hc (isWhitespace_ascii h)
  have nosec : s.inSectionStart = false → s.inSectionName = false := by
    intro h1
    cases h2 : s.inSectionName with
    | false => rfl
    | true => rw [hm.secn h2] at h1; cases h1
  refine step_cases' (P := UtfInv (u ++ [c])) ?_ ?_ ?_ ?_ ?_ ?_ ?_ ?_ ?_ ?_ ?_ ?_ ?_ ?_ ?_ ?_ ?_ ?_ ?_ ?_ ?_ ?_ ?_ ?_ ?_ ?_ ?_ ?_ ?_ ?_
  · rintro _ (h | ⟨h, -⟩)
    · exact (lit h (by decide)).elim
    · exact (ws h).elim
  · intro _ _ _ h; exact (ws h).elim
  · intro ha _ _ _ _
    have := (hm.addr ha).2.2.2.2.1
    exact h.snoc hs hk this rfl rfl rfl hs hk this
  · intro _ hl
    have := (hm.lbl hl).2.2.1
    rw [appText_high hc]
    exact h.snoc hs hk this rfl rfl rfl hs hk this
  · intro _ _ _ h; exact (ws h).elim
  · intro _ _ _ h; exact (hc (isHex_ascii h)).elim
  · intro _ _ _ hr _
    have hn : s.inSectionName = false := by
      cases h2 : s.inSectionName with
      | false => rfl
      | true => have := (hm.sec (hm.secn h2)).1; rw [hr] at this; cases this
    rw [appText_high hc]
    exact h.snoc hs hk hn rfl rfl rfl hs hk hn
  · intro _ _ _ _ hss hn _
    rw [appText_high hc]
    exact h.snoc hs hk hn rfl rfl rfl hs hk hn
  · intro _ _ _ _ hss hsr _ _
    rw [appText_high hc]
    exact h.snoc hs hk (nosec hss) rfl rfl rfl hs hk (nosec hss)
  · intro _ _ _ _ hss _ _
    rw [appText_high hc]
    exact h.snoc hs hk (nosec hss) rfl rfl rfl hs hk (nosec hss)
  · intro _ h; exact (lit h (by decide)).elim
  · intro _ h; exact (lit h (by decide)).elim
  · intro _ h; exact (lit h (by decide)).elim
  · intro _ h; exact (lit h (by decide)).elim
  · intro _ h; exact (ws h).elim
  · intro _ h; exact (ws h).elim
  · intro _ h; exact (ws h).elim
  · intro _ _ _ h; exact (ws h).elim
  · intro _ _ _ h; exact (lit h (by decide)).elim
  · intro _ _ ho _ _
    have hn := nosec (hm.opc ho).2.1
    exact h.snoc hs hk hn rfl rfl rfl hs hk hn
  · intro _ _ _ _ h; exact (lit h (by decide)).elim
  · -- the first byte of the name of a section
    intro _ _ _ _ hss hn ht
    have hv : ValidUtf8 u := (h.track hs hk hn).ascii (by rw [ht]; decide +kernel)
    refine ⟨h.file, by simp [hs, hk], fun _ _ _ => ?_, fun _ => .nil, by simp⟩
    exact (Tracks.of_valid hv .nil).snoc c
  · intro _ _ _ _ _ _ h; exact (lit h (by decide)).elim
  · intro _ _ _ _ hss hn _
    refine ⟨h.file, by simp [hs, hk, hn], fun _ _ _ => ?_, fun _ => h.text (.inr (.inr hn)), by simp [hn]⟩
    exact (h.name hs hk hn).snoc c
  · intro _ _ _ _ _ _ h; exact (lit h (by decide)).elim
  · intro _ _ _ _ _ _ _ h; exact (ws h).elim
  · intro _ _ _ _ _ _ _ h; exact (lit h (by decide)).elim
  · intro _ _ _ _ _ _ _ h; exact (lit h (by decide)).elim
  · intro _ _ _ _ _ _ _ _ h; exact (lit h (by decide)).elim
  · rintro _ _ _ _ _ _ _ _ (h | h)
    · exact (lit h (by decide)).elim
    · exact (lit h (by decide)).elim

theorem UtfInv.step_ascii (hc : c < 128) (h : UtfInv u s) (hu : ValidUtf8 u) :
    UtfInv (u ++ [c]) (s.step L f c) := by
  have hu' : ValidUtf8 (u ++ [c]) := hu.append (.one hc)
  have ht := h.allText hu
  have hse := h.allSect hu
  have htc : ValidUtf8 (s.text ++ [c]) := ht.append (.one hc)
  refine step_cases' (P := UtfInv (u ++ [c])) ?_ ?_ ?_ ?_ ?_ ?_ ?_ ?_ ?_ ?_ ?_ ?_ ?_ ?_ ?_ ?_ ?_ ?_ ?_ ?_ ?_ ?_ ?_ ?_ ?_ ?_ ?_ ?_ ?_ ?_
  · intros; exact .whole hu' h.file hse ht
  · intros; exact .whole hu' h.file hse ht
  · intros; exact .whole hu' h.file hse htc
  · intros; exact .whole hu' h.file hse (appText_ascii hc ht)
  · intros; exact .whole hu' h.file hse htc
  · intros; exact .whole hu' h.file hse htc
  · intros; exact .whole hu' h.file hse (appText_ascii hc ht)
  · intros; exact .whole hu' h.file hse (appText_ascii hc ht)
  · intros; exact .whole hu' h.file hse (appText_ascii hc ht)
  · intros; exact .whole hu' h.file hse (appText_ascii hc ht)
  · intros; exact .whole hu' h.file hse htc
  · intros; exact .whole hu' h.file hse ht
  · intros; exact .whole hu' h.file hse .nil
  · intros; exact .whole hu' h.file hse .nil
  · intros; exact .whole hu' h.file .nil htc
  · intros; exact .whole hu' h.file hse .nil
  · intros; exact .whole hu' h.file hse .nil
  · intros; exact .whole hu' h.file hse .nil
  · intros; exact .whole hu' h.file hse ((ht.append (.ascii (by decide +kernel))).append (.one hc))
  · intros; exact .whole hu' h.file hse htc
  · intros; exact .whole hu' h.file hse (ht.append (.ascii (by decide +kernel)))
  · intros; exact .whole hu' h.file (.one hc) .nil
  · intros; exact .whole hu' h.file hse .nil
  · intros; exact .whole hu' h.file (hse.append (.one hc)) ht
  · intros; exact .whole hu' ht hse .nil
  · intros; exact .whole hu' (by rw [srcUpd_file_eq]; exact h.file) hse .nil
  · intros; exact .whole hu' h.file hse htc
  · intros; exact .whole hu' h.file hse htc
  · intros; exact .whole hu' h.file hse htc
  · intros; exact .whole hu' h.file hse htc

theorem labelText_valid {t : Str} (h : ValidUtf8 t) : ValidUtf8 (labelText t) := by
  unfold labelText getLabelFromObjdumpLabel
  split
  · rename_i hc
    simp only [Bool.and_eq_true, startsWith, endsWith, List.isPrefixOf_iff_prefix, List.isSuffixOf_iff_suffix] at hc
    obtain ⟨⟨x, hx⟩, ⟨y, hy⟩⟩ := hc
    cases y with
    | nil => rw [← hy] at hx; simp at hx
    | cons d y =>
      rw [← hx] at hy
      simp only [List.cons_append, List.nil_append, List.cons.injEq] at hy
      obtain ⟨rfl, rfl⟩ := hy
      subst hx
      rw [Option.getD_some]
      have e : (List.drop 1 (b! "<" ++ (y ++ b! ">:"))).take ((b! "<" ++ (y ++ b! ">:")).length - 3) = y := by
        simp
      rw [e]
      have h1 : ValidUtf8 (y ++ c! '>' :: b! ":") := ValidUtf8.right (a := []) (c := c! '<') (by decide) h
      exact h1.left (by decide)
  · exact h

/-- What is known of the strings of an output line. -/
structure LineUtf (l : AsmLine) : Prop where
  text : ValidUtf8 l.text
  sect : ValidUtf8 l.sect
  file : ValidUtf8 l.source.file
  label : ValidUtf8 l.label

theorem utf8_parse (L : Locale) (f : Filter) (s : Str) (hs : ValidUtf8 s) :
    UtfInv s (objParse L f s).st ∧ ∀ l ∈ (objParse L f s).lines, LineUtf l := by
  have hpre : ∀ {t : Str} {c : Byte}, c < 128 → t ++ [c] <+: s → ValidUtf8 t := by
    rintro t c hc ⟨x, rfl⟩
    rw [List.append_assoc] at hs
    exact hs.left hc
  refine lines_inv_in (L := L) (f := f) (I := UtfInv) (P := LineUtf) s ?_ ?_ ?_ ?_ ?_ ?_ ?_ ?_
  · exact .whole .nil .nil .nil .nil
  · intro t st c hp hm h h1 h2 _ _
    by_cases hc : c < 128
    · exact h.step_ascii hc (hpre hc hp)
    · exact h.step_high hm hc h1 h2
  · intro t st c hp hm h hc
    rcases hc with rfl | ⟨hk, -⟩ | hst
    · have hu := hpre (by decide) hp
      exact .whole (hu.append (.one (by decide))) h.file (h.allSect hu) (h.allText hu)
    · exact ⟨h.file, h.sect, by simp [hk], h.text, by simp [hk]⟩
    · exact ⟨h.file, h.sect, by simp [hst], h.text, by simp [hst]⟩
  · intro t st u i sp pl hp _ h _
    have hu := hpre (by decide) hp
    exact .whole (hu.append (.one (by decide))) h.file (h.allSect hu) .nil
  · intro t st hp _ h _ _ _
    have hu := hpre (by decide) hp
    refine .whole (hu.append (.one (by decide))) ?_ ?_ .nil
    · simp only [OState.commonReset, updateSourceRef_eq, srcUpd_file_eq]; exact h.file
    · simp only [OState.commonReset, updateSourceRef_eq]; exact h.allSect hu
  · exact ⟨.ascii (by decide +kernel), .nil, .nil, .nil⟩
  · intro t st hp hm h hl _ _ _
    have hu := hpre (by decide) hp
    have hnl := hm.notLabel
    refine ⟨?_, ?_, ?_, ?_⟩
    · simp only [OState.finishLine, hnl, Bool.false_eq_true, ↓reduceIte]
      exact ValidUtf8.append (a := b! " ") (.ascii (by decide +kernel)) (h.allText hu)
    · simp only [OState.finishLine, hnl, Bool.false_eq_true, ↓reduceIte]; exact h.allSect hu
    · simp only [OState.finishLine, hnl, Bool.false_eq_true, ↓reduceIte]; exact h.file
    · simp only [OState.finishLine, hnl, Bool.false_eq_true, ↓reduceIte, hm.noLabel]; exact .nil
  · intro t st hp hm h hl _ _
    have hu := hpre (by decide) hp
    have hv := labelText_valid (h.allText hu)
    exact ⟨hv.append (.ascii (by decide +kernel)), h.allSect hu, h.file, hv⟩

/-- The names in the label table. -/
theorem utf8_labels (L : Locale) (f : Filter) (s : Str) (hs : ValidUtf8 s) : ∀ d ∈ (objParse L f s).labels, ValidUtf8 d.1 := by
  suffices h : ∀ t, t <+: s → ∀ d ∈ (objParse L f t).labels, ValidUtf8 d.1 from h s (List.prefix_refl _)
  intro t ht
  induction t using snoc_induct with
  | nil => simp [objParse_eq, start]
  | snoc t c ih =>
    have ih := ih ((List.prefix_append t [c]).trans ht)
    have hi : c = 10 → ValidUtf8 (labelText (objParse L f t).st.text) := by
      rintro rfl
      obtain ⟨x, rfl⟩ := ht
      have hv : ValidUtf8 t := by
        rw [List.append_assoc] at hs
        exact hs.left (c := 10) (by decide)
      exact labelText_valid ((utf8_parse L f t hv).1.allText hv)
    rw [objParse_append]
    simp only [List.foldl_cons, List.foldl_nil]
    generalize objParse L f t = p at *
    by_cases hst : p.st.stopParsing = true
    · rw [feed_stop hst]; exact ih
    have new : c = 10 → ∀ k, ∀ d ∈ p.prune.labels ++ [(labelText p.st.text, k)], ValidUtf8 d.1 := by
      intro hc k d hd
      simp only [List.mem_append, List.mem_singleton] at hd
      rcases hd with hd | rfl
      · exact ih d (prune_mem_labels hd)
      · exact hi hc
    refine feed_cases (P := fun p => ∀ d ∈ p.labels, ValidUtf8 d.1) (Bool.eq_false_of_ne hst) ih (fun hc => ?_) (fun _ _ _ => ih)
    refine eol_cases (P := fun p => ∀ d ∈ p.labels, ValidUtf8 d.1) ?_ ?_ ?_ ?_ ?_ ?_ ?_ ?_
    · intros; exact ih _ ‹_›
    · intros; exact ih _ ‹_›
    · intros; exact ih _ ‹_›
    · intros; exact ih _ ‹_›
    · intro _ _ _ d hd; exact ih d (prune_mem_labels hd)
    · intro _ _ _ _; exact new hc _
    · intro _ _ _ _ _; exact new hc _
    · intro _ _ _ _ _; exact new hc _

end AsmParser
