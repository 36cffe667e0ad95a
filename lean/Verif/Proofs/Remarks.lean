/-
Helper lemmas: comments have no effect in text mode.
-/
import Verif.Spec.Remarks
import Verif.Proofs.SourceRead
import Verif.Proofs.Recognize
import Verif.Proofs.TextView
import Verif.Proofs.MoreFilters

namespace AsmParser

attribute [local irreducible] Re.search Re.fullMatch

theorem feed_unlines (L : Locale) (ls : List Str) (h : ∀ l ∈ ls, 10 ∉ l) (p : TParser) :
    (unlines ls).foldl (TParser.feed L) p = ls.foldl (fun q l => (q.addText l).eol L) p := by
  induction ls generalizing p with
  | nil => rfl
  | cons l ls ih =>
    have e : unlines (l :: ls) = l ++ (10 :: unlines ls) := by simp [unlines]
    rw [e, List.foldl_append, foldl_addText L l (h l (by simp)), List.foldl_cons, feed_lf, List.foldl_cons,
      ih fun x hx => h x (List.mem_cons_of_mem _ hx)]

/-! ### A line that is only a comment -/

theorem ink_cons_of {c : Byte} {s : Str} (h : ¬ Space c) : ink (c :: s) = c :: ink s := by
  unfold ink
  rw [List.filter_cons, if_pos]
  exact decide_eq_true h

theorem remark_ink {l : Str} (h : Remark l) : ∃ c r, ink l = c :: r ∧ c ≠ c! '.' := by
  obtain ⟨bs, c, r, h1, rfl, h2⟩ := h.comment
  have hc : ¬ Space c ∧ c ≠ c! '.' := by
    rcases h2 with rfl | ⟨rfl, -⟩ | ⟨rfl, -⟩ <;> (unfold Space; decide)
  exact ⟨c, ink r, by rw [ink_append, ink_blanks h1, List.nil_append, ink_cons_of hc.1], hc.2⟩

theorem instructs_ink {t kw arg : Str} (h : Instructs t (c! '.' :: kw) arg) : ∃ r, ink t = c! '.' :: r := by
  obtain ⟨bs, bs', h1, -, -, rfl⟩ := h
  refine ⟨ink (kw ++ (bs' ++ arg)), ?_⟩
  rw [List.append_assoc, List.append_assoc, ink_append, ink_blanks h1, List.nil_append, List.cons_append, ink_cons_of (by unfold Space; decide)]

theorem sourceInfo_ink {t : Str} (h : SourceInfo t) : ∃ r, ink t = c! '.' :: r := by
  rcases h with ⟨i, name, h⟩ | ⟨i, n, c, h, -⟩ | ⟨k, n, h⟩ | h | ⟨n, h⟩ | ⟨name, h⟩
  · obtain ⟨d, bs, q, a, r, -, -, -, -, -, h, -⟩ := h; exact instructs_ink h
  · obtain ⟨a, bs, b, r, -, -, -, -, -, -, h, -⟩ := h; exact instructs_ink h
  · obtain ⟨a, b, r, -, -, -, -, h⟩ := h; exact instructs_ink h
  · obtain ⟨r, h⟩ := h; exact instructs_ink h
  · obtain ⟨a, r, -, -, h⟩ := h; exact instructs_ink h
  · exact instructs_ink h

theorem lineText_ink (f : Filter) (n : Int) {ws l : Str} (h : Blanks ws) : ink (lineText f n (ws ++ l)) = ink l := by
  obtain ⟨sp, t', h1, h2, -, h4, -⟩ := lineText_shown f n (ws ++ l)
  rw [h4, ink_cleaned]
  have := congrArg ink h1
  rw [ink_append, ink_append, ink_blanks h, ink_spaces h2] at this
  exact this.symm

/-- What the parser does at a line that is only a comment. -/
def TParser.pass (p : TParser) : TParser :=
  (if p.filter.libraryFunctions && p.st.lastOwnSourceLine == 0 && p.st.currentFilename.isEmpty then p.maybeRemovePrevious
   else { p with st := { p.st with mayRemovePreviousLabel := true } }).clear

theorem pass_text (p : TParser) (t : Str) : TParser.pass { p with st := { p.st with text := t } } = p.pass := by
  unfold TParser.pass TParser.maybeRemovePrevious TParser.clear
  simp only
  repeat' split
  all_goals first | rfl | simp_all

theorem library_comment (L : Locale) (q : TParser) (ln : TLine) (raw : Str) (b : Bool) (hc : q.filter.commentOnly = true)
    (h : (isJustComments raw && !q.st.inNvccCode || isJustNvccComments raw && q.st.inNvccCode) = true) :
    q.eolLibrary L ln raw b = q.pass := by
  have com : ∀ r : TParser, r.filter = q.filter → r.st.inNvccCode = q.st.inNvccCode → r.eolComment L ln raw b = r.clear := by
    intro r h1 h2
    unfold TParser.eolComment
    rw [h1, h2, hc, h]
    rfl
  have hm : q.maybeRemovePrevious.filter = q.filter ∧ q.maybeRemovePrevious.st.inNvccCode = q.st.inNvccCode := by
    unfold TParser.maybeRemovePrevious
    repeat' split
    all_goals exact ⟨rfl, rfl⟩
  unfold TParser.eolLibrary TParser.pass
  split
  · simp only
    split
    · rfl
    · exact com _ hm.1 hm.2
  · exact com _ rfl rfl

theorem sources_none (p : TParser) (ln : TLine) (h1 : ¬ Seen.Ends { text := ln.text, code := p.st.inNvccCode })
    (h2 : ¬ SourceInfo ln.text) : p.handleSourceDirectives ln = (p, false) := by
  have h3 : (p.handleSourceDirectives ln).2 = false := by
    cases h : (p.handleSourceDirectives ln).2 with
    | false => rfl
    | true => exact absurd ((handleSourceDirectives_iff p ln).1 h).2 h2
  rw [← ends_iff, Bool.not_eq_true] at h1
  unfold TParser.handleSourceDirectives at h3 ⊢
  rw [h1] at h3 ⊢
  simp only [Bool.false_eq_true, if_false] at h3 ⊢
  repeat' split
  all_goals first | rfl | simp_all

attribute [local irreducible] TParser.eolLibrary TParser.pass in
theorem eol_remark (L : Locale) (p : TParser) (l : Str) (hc : p.filter.commentOnly = true) (hi : p.st.hasStartedCommentBlock = false)
    (hb : Blanks p.st.text) (hl : Remark l) :
    (p.addText l).eol L = TParser.pass { p with totalLines := p.totalLines + 1, nextId := p.nextId + 2 } := by
  obtain ⟨bs, c, r, k1, k2, k3⟩ := hl.comment
  have hcb : ¬ Blank c := by rcases k3 with rfl | ⟨rfl, -⟩ | ⟨rfl, -⟩ <;> decide
  have hraw : p.st.text ++ l = (p.st.text ++ bs) ++ c :: r := by rw [k2]; simp
  have hbb : Blanks (p.st.text ++ bs) := hb.append k1
  have nopen : startCommentBlock (p.st.text ++ l) = false := by
    cases h : startCommentBlock (p.st.text ++ l) with
    | false => rfl
    | true =>
      obtain ⟨b2, r2, g1, g2⟩ := (startCommentBlock_iff _).1 h
      rw [hraw, show b2 ++ b! "/*" ++ r2 = b2 ++ c! '/' :: (c! '*' :: r2) by simp] at g2
      obtain ⟨-, g3, g4⟩ := split_unique hbb g1 hcb (by decide) g2
      subst g3
      subst g4
      rcases k3 with h | ⟨-, h⟩ | ⟨h, -⟩
      · exact absurd h (by decide)
      · simp at h
      · exact absurd h (by decide)
  have nblank : isEmptyOrJustWhitespace (p.st.text ++ l) = false := by
    cases h : isEmptyOrJustWhitespace (p.st.text ++ l) with
    | false => rfl
    | true => exact absurd (blanks_white.1 h c (by rw [hraw]; simp)) hcb
  have hnest : nesting p.st.inCustomAssembly (p.st.text ++ l) = p.st.inCustomAssembly := by
    have no : ∀ w ∈ [b! "#APP", b! "#NO_APP", b! "# Begin ASM", b! "# End ASM"], ¬ ∃ bs r, Blanks bs ∧ p.st.text ++ l = bs ++ w ++ r := by
      rintro w hw ⟨b2, r2, g1, g2⟩
      obtain ⟨w', hw'⟩ : ∃ w', w = c! '#' :: w' := by
        simp only [List.mem_cons, List.not_mem_nil, or_false] at hw
        rcases hw with rfl | rfl | rfl | rfl <;> exact ⟨_, rfl⟩
      have g2' := g2
      rw [hraw, hw', show b2 ++ (c! '#' :: w') ++ r2 = b2 ++ c! '#' :: (w' ++ r2) by simp] at g2'
      obtain ⟨-, g3, g4⟩ := split_unique hbb g1 hcb (by decide) g2'
      refine hl.marker w hw bs r2 k1 ?_
      rw [k2, g3, g4, hw']
      simp
    have f1 : startAppBlock (p.st.text ++ l) = false := by
      rw [← Bool.not_eq_true, startAppBlock_iff]; exact no _ (by simp)
    have f2 : startAsmNesting (p.st.text ++ l) = false := by
      rw [← Bool.not_eq_true, startAsmNesting_iff]; exact no _ (by simp)
    have f3 : endAppBlock (p.st.text ++ l) = false := by
      rw [← Bool.not_eq_true, endAppBlock_iff]; exact no _ (by simp)
    have f4 : endAsmNesting (p.st.text ++ l) = false := by
      rw [← Bool.not_eq_true, endAsmNesting_iff]; exact no _ (by simp)
    unfold nesting
    rw [f1, f2, f3, f4]
    rfl
  -- the text of the line
  have hink : ink (lineText p.filter p.st.inCustomAssembly (p.st.text ++ l)) = ink l := lineText_ink _ _ hb
  have nword : ∀ w ∈ [b! ".cfi_startproc", b! ".cfi_endproc", b! ".data", b! ".text", b! ".section"],
      ¬ Contains (lineText p.filter p.st.inCustomAssembly (p.st.text ++ l)) w := by
    intro w hw hcon
    have hsp : ∀ c ∈ w, ¬ Space c := by
      simp only [List.mem_cons, List.not_mem_nil, or_false] at hw
      rcases hw with rfl | rfl | rfl | rfl | rfl <;> (unfold Space; decide)
    have := contains_ink hcon hsp
    rw [hink] at this
    exact hl.words w hw this
  have nproc : startProcBlock (lineText p.filter p.st.inCustomAssembly (p.st.text ++ l)) = false := by
    rw [← Bool.not_eq_true, startProcBlock_iff]; exact nword _ (by simp)
  have nends : ¬ Seen.Ends { text := lineText p.filter p.st.inCustomAssembly (p.st.text ++ l), code := p.st.inNvccCode } := by
    rintro (⟨w, hw, h⟩ | ⟨-, h⟩)
    · exact nword w (List.mem_cons_of_mem _ hw) h
    · have : c! '}' ∈ ink (lineText p.filter p.st.inCustomAssembly (p.st.text ++ l)) := List.mem_filter.2 ⟨h, by decide⟩
      rw [hink] at this
      exact hl.brace (List.mem_filter.1 this).1
  have ninfo : ¬ SourceInfo (lineText p.filter p.st.inCustomAssembly (p.st.text ++ l)) := by
    intro h
    obtain ⟨r1, h1⟩ := sourceInfo_ink h
    obtain ⟨c2, r2, h2, h3⟩ := remark_ink hl
    rw [hink, h2] at h1
    exact h3 (List.cons.inj h1).1
  have nsect : getSectionNameDef (lineText p.filter p.st.inCustomAssembly (p.st.text ++ l)) = none := by
    cases h : getSectionNameDef (lineText p.filter p.st.inCustomAssembly (p.st.text ++ l)) with
    | none => rfl
    | some name =>
      exfalso
      obtain ⟨a, kw, r, g1, g2, -⟩ := getSection_iff.1 h
      refine nword (b! "." ++ kw) ?_ ⟨a, r, by rw [g2]; simp⟩
      simp only [List.mem_cons, List.not_mem_nil, or_false] at g1
      rcases g1 with rfl | rfl | rfl <;> simp
  have ncom : (isJustComments (p.st.text ++ l) && !p.st.inNvccCode || isJustNvccComments (p.st.text ++ l) && p.st.inNvccCode) = true := by
    have o1 : isJustComments (p.st.text ++ l) = true := by
      rw [isJustComments_iff]
      refine ⟨p.st.text ++ bs, c :: r, hbb, hraw, ?_⟩
      rcases k3 with rfl | ⟨rfl, h⟩ | ⟨rfl, h⟩
      · exact .inl ⟨r, rfl⟩
      · obtain ⟨r', rfl⟩ := List.head?_eq_some_iff.1 h
        exact .inr (.inr (.inl ⟨r', rfl⟩))
      · refine .inr (.inr (.inr (.inr ⟨r, rfl, ?_⟩)))
        rintro ⟨ws, rfl, -⟩
        exact h rfl
    have o2 : isJustNvccComments (p.st.text ++ l) = true := by
      rw [isJustNvccComments_iff]
      refine ⟨p.st.text ++ bs, c :: r, hbb, hraw, ?_⟩
      rcases k3 with rfl | ⟨rfl, h⟩ | ⟨rfl, h⟩
      · exact .inl ⟨r, rfl⟩
      · obtain ⟨r', rfl⟩ := List.head?_eq_some_iff.1 h
        exact .inr (.inr (.inl ⟨r', rfl⟩))
      · exact .inr (.inl ⟨r, rfl⟩)
    rw [o1, o2]
    cases p.st.inNvccCode <;> rfl
  change (if p.filter.commentOnly && (p.st.hasStartedCommentBlock || startCommentBlock (p.st.text ++ l)) then _
    else if isEmptyOrJustWhitespace (p.st.text ++ l) then _
    else TParser.eolBody L { p with totalLines := p.totalLines + 1, nextId := p.nextId + 2, st := { p.st with text := p.st.text ++ l } } p.nextId) = _
  rw [if_neg (by rw [hi, nopen]; simp), if_neg (by rw [nblank]; simp)]
  unfold TParser.eolBody
  simp only [hnest, nproc, Bool.false_and, Bool.false_eq_true, if_false]
  unfold TParser.eolSource
  rw [sources_none]
  · simp only [TParser.handleSection, nsect, Bool.not_false, if_true]
    refine Eq.trans (library_comment L
      { p with totalLines := p.totalLines + 1, nextId := p.nextId + 2, st := { p.st with text := p.st.text ++ l } } _ _ _ hc ncom) ?_
    exact pass_text { p with totalLines := p.totalLines + 1, nextId := p.nextId + 2 } _
  · exact nends
  · exact ninfo

/-! ### All lines -/

theorem occurs_blanks {ws l : Str} (h : Blanks ws) : occurs b! "*/" (ws ++ l) = occurs b! "*/" l := by
  induction ws with
  | nil => rfl
  | cons c ws ih =>
    have hc : ¬ c! '*' = c := by
      rintro rfl
      exact absurd (h _ List.mem_cons_self) (by decide)
    rw [List.cons_append]
    unfold occurs
    rw [ih fun d hd => h d (List.mem_cons_of_mem _ hd)]
    have : (b! "*/").isPrefixOf (c :: (ws ++ l)) = false := by
      simp [List.isPrefixOf, hc]
    rw [this, Bool.false_or]
    cases l <;> rfl

theorem opens_blanks {ws l : Str} (h : Blanks ws) : opensComment (ws ++ l) = opensComment l := by
  unfold opensComment
  rw [dropWhile_blanks h]

theorem read_same (L : Locale) {i : Bool} {ls ls' : List Str} (h : SameCode i ls ls') : ∀ p : TParser, p.filter.commentOnly = true →
    Basic p → Blanks p.st.text → p.st.hasStartedCommentBlock = i →
    ls.foldl (fun q l => (q.addText l).eol L) p = ls'.foldl (fun q l => (q.addText l).eol L) p := by
  have block : ∀ (p : TParser) (l l' : Str), p.filter.commentOnly = true → Blanks p.st.text →
      (p.st.hasStartedCommentBlock = true ∨ opensComment l = true) → (p.st.hasStartedCommentBlock = true ∨ opensComment l' = true) →
      occurs b! "*/" l = occurs b! "*/" l' → (p.addText l).eol L = (p.addText l').eol L := by
    intro p l l' hc hb h1 h2 h3
    have key : ∀ x, (p.st.hasStartedCommentBlock = true ∨ opensComment x = true) →
        (p.addText x).eol L = { p with totalLines := p.totalLines + 1, nextId := p.nextId + 2, st := { p.st with hasStartedCommentBlock := !occurs b! "*/" x, text := [] } } := by
      intro x hx
      unfold TParser.eol
      simp only [TParser.addText, hc, startCommentBlock_opens, opens_blanks hb, endCommentBlock_occurs, occurs_blanks hb]
      rw [if_pos (by simpa using hx)]
      rfl
    rw [key l h1, key l' h2, h3]
  induction h with
  | nil => intros; rfl
  | @line l ls ls' h ih =>
    intro p hc hB hb hi
    rw [List.foldl_cons, List.foldl_cons]
    have hs := eol_step L (p.addText l) (basic_addText hB l)
    refine ih _ (by rw [hs.filter]; exact hc) hs.basic (carry_step hs) ?_
    rw [hs.block]
    unfold TParser.blockAfter
    rw [show (p.addText l).filter = p.filter from rfl, show (p.addText l).st.text = p.st.text ++ l from rfl,
      show (p.addText l).st.hasStartedCommentBlock = p.st.hasStartedCommentBlock from rfl, hc, hi, startCommentBlock_opens, opens_blanks hb,
      endCommentBlock_occurs, occurs_blanks hb]
    cases opensComment l <;> simp
  | @remark l l' ls ls' h1 h2 h ih =>
    intro p hc hB hb hi
    rw [List.foldl_cons, List.foldl_cons]
    have hs := eol_step L (p.addText l) (basic_addText hB l)
    have e : (p.addText l').eol L = (p.addText l).eol L := by rw [eol_remark L p l hc hi hb h1, eol_remark L p l' hc hi hb h2]
    rw [e]
    refine ih _ (by rw [hs.filter]; exact hc) hs.basic (carry_step hs) ?_
    rw [eol_remark L p l hc hi hb h1]
    unfold TParser.pass TParser.maybeRemovePrevious TParser.clear
    repeat' split
    all_goals exact hi
  | @opening l l' ls ls' h1 h2 h3 h ih =>
    intro p hc hB hb hi
    rw [List.foldl_cons, List.foldl_cons]
    have hs := eol_step L (p.addText l) (basic_addText hB l)
    rw [← block p l l' hc hb (.inr h1) (.inr h2) h3]
    refine ih _ (by rw [hs.filter]; exact hc) hs.basic (carry_step hs) ?_
    rw [hs.block]
    unfold TParser.blockAfter
    rw [show (p.addText l).filter = p.filter from rfl, show (p.addText l).st.text = p.st.text ++ l from rfl,
      show (p.addText l).st.hasStartedCommentBlock = p.st.hasStartedCommentBlock from rfl, hc, startCommentBlock_opens, opens_blanks hb,
      endCommentBlock_occurs, occurs_blanks hb, h1]
    simp
  | @inside l l' ls ls' h3 h ih =>
    intro p hc hB hb hi
    rw [List.foldl_cons, List.foldl_cons]
    have hs := eol_step L (p.addText l) (basic_addText hB l)
    rw [← block p l l' hc hb (.inl hi) (.inl hi) h3]
    refine ih _ (by rw [hs.filter]; exact hc) hs.basic (carry_step hs) ?_
    rw [hs.block]
    unfold TParser.blockAfter
    rw [show (p.addText l).filter = p.filter from rfl, show (p.addText l).st.text = p.st.text ++ l from rfl,
      show (p.addText l).st.hasStartedCommentBlock = p.st.hasStartedCommentBlock from rfl, hc, startCommentBlock_opens, opens_blanks hb,
      endCommentBlock_occurs, occurs_blanks hb, hi]
    simp

theorem readStream_same (L : Locale) {f : Filter} (hc : f.commentOnly = true) {ls ls' : List Str} (h : SameCode false ls ls')
    (h1 : ∀ l ∈ ls, 10 ∉ l) (h2 : ∀ l ∈ ls', 10 ∉ l) :
    (TParser.init f).readStream L (unlines ls) = (TParser.init f).readStream L (unlines ls') := by
  rw [readStream_eq, readStream_eq, feed_unlines L ls h1, feed_unlines L ls' h2]
  congr 1
  exact read_same L h _ hc ⟨rfl, rfl, fun _ => ⟨rfl, rfl⟩⟩ (by intro c hc; cases hc) rfl

theorem marker_free {l : Str} (h1 : startsWithWord [b! "#APP", b! "# Begin ASM"] l = false)
    (h2 : startsWithWord [b! "#NO_APP", b! "# End ASM"] l = false) :
    ∀ w ∈ [b! "#APP", b! "#NO_APP", b! "# Begin ASM", b! "# End ASM"], ∀ bs r, Blanks bs → l ≠ bs ++ w ++ r := by
  intro w hw bs r hb e
  have k1 := (startsWithWord_two b! "#APP" b! "# Begin ASM" l (by intro c hc; simp at hc; subst hc; unfold Blank; decide) (by simp)
    (by intro c hc; simp at hc; subst hc; unfold Blank; decide) (by simp))
  have k1 := fun h => absurd (b := False) (k1.2 h) (by rw [h1]; simp)
  have k2 := (startsWithWord_two b! "#NO_APP" b! "# End ASM" l (by intro c hc; simp at hc; subst hc; unfold Blank; decide) (by simp)
    (by intro c hc; simp at hc; subst hc; unfold Blank; decide) (by simp))
  have k2 := fun h => absurd (b := False) (k2.2 h) (by rw [h2]; simp)
  simp only [List.mem_cons, List.not_mem_nil, or_false] at hw
  rcases hw with rfl | rfl | rfl | rfl
  · exact k1 (.inl ⟨bs, r, hb, e⟩)
  · exact k2 (.inl ⟨bs, r, hb, e⟩)
  · exact k1 (.inr ⟨bs, r, hb, e⟩)
  · exact k2 (.inr ⟨bs, r, hb, e⟩)

/-- A test for `Remark`. -/
theorem remark_sample (l : Str) (h1 : ∃ c r, l.dropWhile (fun c => c = 32 || c = 9) = c :: r ∧
      (c = c! '#' ∨ c = c! '/' ∧ r.head? = some c! '/' ∨ c = c! ';' ∧ r.head? ≠ some c! ';'))
    (h2 : ∀ w ∈ [b! ".cfi_startproc", b! ".cfi_endproc", b! ".data", b! ".text", b! ".section"], occurs w (ink l) = false)
    (h3 : c! '}' ∉ l)
    (h4 : startsWithWord [b! "#APP", b! "# Begin ASM"] l = false ∧ startsWithWord [b! "#NO_APP", b! "# End ASM"] l = false) : Remark l := by
  refine ⟨?_, ?_, h3, ?_⟩
  · obtain ⟨c, r, e, h⟩ := h1
    obtain ⟨bs, g1, g2⟩ := dropWhile_blank l
    exact ⟨bs, c, r, g1, by rw [← e]; exact g2, h⟩
  · intro w hw hc
    rw [← occurs_iff, h2 w hw] at hc
    exact absurd hc (by simp)
  · exact marker_free h4.1 h4.2

end AsmParser
