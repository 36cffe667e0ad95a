/-
Helper lemmas: the shape of the results of `TParser.eol`.
-/
import Verif.Model.AsmText
import Verif.Spec.Text

namespace AsmParser

attribute [local irreducible] Re.search Re.fullMatch

/-! ### Lines up to their source reference -/

/-- The line without its source reference. -/
def TLine.noSrc (l : TLine) : TLine := { l with source := {} }

/-- The same lines, except for their source references. -/
def Amended (a b : List TLine) : Prop := a.map TLine.noSrc = b.map TLine.noSrc

theorem Amended.refl (a : List TLine) : Amended a a := rfl
theorem Amended.trans {a b c : List TLine} (h : Amended a b) (h' : Amended b c) : Amended a c := Eq.trans h h'
theorem Amended.length {a b : List TLine} (h : Amended a b) : a.length = b.length := by
  have := congrArg List.length h; simpa using this

/-- Functions that do not look at the source reference give the same result. -/
theorem Amended.map {α : Type} {a b : List TLine} (h : Amended a b) (f : TLine → α) (hf : ∀ l, f l = f l.noSrc) :
    a.map f = b.map f := by
  have e : ∀ l : List TLine, l.map f = (l.map TLine.noSrc).map f := by
    intro l; rw [List.map_map]; exact List.map_congr_left fun x _ => hf x
  rw [e a, e b, h]

theorem Amended.mem {a b : List TLine} (h : Amended a b) {l : TLine} (hl : l ∈ b) : ∃ l' ∈ a, l'.noSrc = l.noSrc := by
  have : l.noSrc ∈ b.map TLine.noSrc := List.mem_map_of_mem hl
  rw [← h] at this
  simpa using this

/-- A property of lines that does not look at the source reference carries over. -/
theorem Amended.forall {a b : List TLine} (h : Amended a b) {P : TLine → Prop} (hP : ∀ l, P l ↔ P l.noSrc)
    (ha : ∀ l ∈ a, P l) : ∀ l ∈ b, P l := by
  intro l hl
  obtain ⟨l', h1, h2⟩ := h.mem hl
  rw [hP, ← h2, ← hP]
  exact ha _ h1

theorem amendRev_noSrc (src : TSource) (ls : List TLine) : (amendRev src ls).map TLine.noSrc = ls.map TLine.noSrc := by
  induction ls with
  | nil => rfl
  | cons l ls ih =>
    unfold amendRev
    split
    · split
      · simp only [List.map_cons, ih]; rfl
      · rfl
    · rfl

theorem amended_amend (src : TSource) (ls : List TLine) : Amended ls (amendRev src ls.reverse).reverse := by
  unfold Amended
  rw [List.map_reverse, amendRev_noSrc, List.map_reverse, List.reverse_reverse]

theorem amended_mark (p : TParser) : Amended p.lines p.markPreviousInternalLabelAsInsideProc.lines := by
  unfold TParser.markPreviousInternalLabelAsInsideProc Amended
  simp only
  split
  · rename_i h
    have : p.lines = [] := by simpa using h
    rw [this]
  · rename_i l ls h
    have : p.lines = (l :: ls).reverse := by rw [← h, List.reverse_reverse]
    rw [this]
    simp only [List.map_reverse, List.map_cons]
    congr 2
    split <;> rfl

/-! ### The stages of `eol` -/

/-- Counters after the beginning of `eol`. -/
def TParser.start (p : TParser) : TParser := { p with totalLines := p.totalLines + 1, nextId := p.nextId + 2 }

/-- After the nesting of custom assembly has been updated. -/
def TParser.nested (p : TParser) : TParser :=
  { p.start with st := { p.st with inCustomAssembly := nesting p.st.inCustomAssembly p.st.text } }

/-- The line as it is at the beginning. -/
def TParser.newLine (p : TParser) : TLine :=
  { id := p.nextId, text := lineText p.filter p.nested.st.inCustomAssembly p.st.text }

/-- Does a procedure start here? -/
def TParser.atProc (p : TParser) : Bool := startProcBlock p.newLine.text && p.st.currentSourceRef.line == 0

def TParser.pre (p : TParser) : TParser :=
  if p.atProc then p.nested.markPreviousInternalLabelAsInsideProc else p.nested

/-- Is the line a source directive? -/
def TParser.handled (p : TParser) : Bool := (p.pre.handleSourceDirectives p.newLine).2

/-- After the source directives and sections have been handled. -/
def TParser.sec (p : TParser) : TParser :=
  if !p.handled then (p.pre.handleSourceDirectives p.newLine).1.handleSection p.newLine.id p.newLine.text
  else (p.pre.handleSourceDirectives p.newLine).1

/-- Ditto, `mayRemovePreviousLabel` set. -/
def TParser.sec' (p : TParser) : TParser := { p.sec with st := { p.sec.st with mayRemovePreviousLabel := true } }

/-- The parser and the line after label definitions have been handled. -/
def TParser.lab (p : TParser) : TParser × TLine :=
  if p.handled then
    (p.sec', { p.newLine with isData := false, isDirective := true, isLabel := false, isInternalLabel := false })
  else ((p.sec'.handleLabelDefinition p.newLine).1,
    { (p.sec'.handleLabelDefinition p.newLine).2 with isData := isDataDefn p.newLine.text, isDirective := false })

/-- The line, with `isDirective` set. -/
def TParser.dirLine (p : TParser) : TLine :=
  if p.handled then p.lab.2 else { p.lab.2 with isDirective := isDirective p.lab.2.text }

/-- Facts about a parser that started from scratch. -/
structure Basic (p : TParser) : Prop where
  own : p.st.lastOwnSourceLine = 0
  fname : p.st.currentFilename = []
  lib : p.filter.libraryFunctions = true → p.lines = [] ∧ p.st.keepInlineCode = false

theorem handleLabelDefinition_text (p : TParser) (ln : TLine) : (p.handleLabelDefinition ln).2.text = ln.text := by
  unfold TParser.handleLabelDefinition
  split <;> rfl

theorem handleLabelDefinition_id (p : TParser) (ln : TLine) : (p.handleLabelDefinition ln).2.id = ln.id := by
  unfold TParser.handleLabelDefinition
  split <;> rfl

theorem handleLabelDefinition_filter (p : TParser) (ln : TLine) : (p.handleLabelDefinition ln).1.filter = p.filter := by
  unfold TParser.handleLabelDefinition
  split <;> rfl

theorem lab_text (p : TParser) : p.lab.2.text = p.newLine.text := by
  unfold TParser.lab; split
  · rfl
  · exact handleLabelDefinition_text _ _

theorem lab_id (p : TParser) : p.lab.2.id = p.newLine.id := by
  unfold TParser.lab; split
  · rfl
  · exact handleLabelDefinition_id _ _

theorem lab_filter (p : TParser) : p.lab.1.filter = p.sec.filter := by
  unfold TParser.lab; split
  · rfl
  · exact handleLabelDefinition_filter _ _

theorem dirLine_text (p : TParser) : p.dirLine.text = p.newLine.text := by
  unfold TParser.dirLine; split
  · exact lab_text p
  · exact lab_text p

theorem dirLine_id (p : TParser) : p.dirLine.id = p.newLine.id := by
  unfold TParser.dirLine; split
  · exact lab_id p
  · exact lab_id p

theorem extractDirective_filter (p : TParser) (n : Nat) (t : Str) :
    (p.extractUsedLabelsFromDirective n t).filter = p.filter := by
  unfold TParser.extractUsedLabelsFromDirective
  split
  · rfl
  · split <;> rfl

/-- What handling a source directive or section can change. -/
structure SecFrame (p q : TParser) : Prop where
  eq : ∃ ls files ub csr pl los csf cs, q = { p with
    lines := ls, files := files, ub := ub
    st := { p.st with currentSourceRef := csr, previousLabel := pl, lastOwnSourceLine := los,
                      currentSourceFile := csf, currentSection := cs } }
  lines : Amended p.lines q.lines
  own : p.st.lastOwnSourceLine = 0 → q.st.lastOwnSourceLine = 0

theorem SecFrame.refl (p : TParser) : SecFrame p p := ⟨⟨_, _, _, _, _, _, _, _, rfl⟩, .refl _, id⟩

theorem SecFrame.trans {p q r : TParser} (h : SecFrame p q) (h' : SecFrame q r) : SecFrame p r := by
  obtain ⟨⟨_, _, _, _, _, _, _, _, rfl⟩, h2, h3⟩ := h
  obtain ⟨⟨_, _, _, _, _, _, _, _, rfl⟩, h2', h3'⟩ := h'
  exact ⟨⟨_, _, _, _, _, _, _, _, rfl⟩, h2.trans h2', h3' ∘ h3⟩

theorem frame_pre (p : TParser) : SecFrame p.nested p.pre := by
  unfold TParser.pre
  split
  · exact ⟨⟨_, _, _, _, _, _, _, _, rfl⟩, amended_mark _, id⟩
  · exact .refl _

theorem frame_handleFiledef {p q : TParser} {line : Str} (h : p.handleFiledef line = some q) : SecFrame p q := by
  unfold TParser.handleFiledef at h
  rw [Option.map_eq_some_iff] at h
  obtain ⟨d, -, rfl⟩ := h
  exact ⟨⟨_, _, _, _, _, _, _, _, rfl⟩, .refl _, id⟩

theorem frame_handleSource {p q : TParser} {line : Str} (h : p.handleSource line = some q) : SecFrame p q := by
  unfold TParser.handleSource at h
  generalize getSourceRef line = r at h
  simp only at h
  split at h
  · simp only [Option.some.injEq] at h
    subst h
    exact ⟨⟨_, _, _, _, _, _, _, _, rfl⟩, amended_amend _ _, id⟩
  · exact absurd h (by simp)

theorem frame_handleStabs {p q : TParser} {line : Str} (h : p.handleStabs line = some q) : SecFrame p q := by
  unfold TParser.handleStabs at h
  rw [Option.map_eq_some_iff] at h
  obtain ⟨d, -, rfl⟩ := h
  split
  · exact ⟨⟨_, _, _, _, _, _, _, _, rfl⟩, .refl _, id⟩
  · split
    · exact ⟨⟨_, _, _, _, _, _, _, _, rfl⟩, .refl _, id⟩
    · exact .refl _

theorem frame_handle6502 {p q : TParser} {n : Nat} {line : Str} (h : p.handle6502 n line = some q) : SecFrame p q := by
  unfold TParser.handle6502 at h
  rw [Option.map_eq_some_iff] at h
  obtain ⟨d, -, rfl⟩ := h
  split
  · exact ⟨⟨_, _, _, _, _, _, _, _, rfl⟩, .refl _, id⟩
  · exact .refl _

theorem frame_handleD2 {p q : TParser} {n : Nat} {line : Str} (h : p.handleD2 n line = some q) : SecFrame p q := by
  unfold TParser.handleD2 at h
  split at h
  · simp only [Option.some.injEq] at h
    subst h
    exact ⟨⟨_, _, _, _, _, _, _, _, rfl⟩, amended_amend _ _, id⟩
  · rw [Option.map_eq_some_iff] at h
    obtain ⟨d, -, rfl⟩ := h
    exact ⟨⟨_, _, _, _, _, _, _, _, rfl⟩, .refl _, id⟩

theorem frame_handleSourceDirectives (p : TParser) (ln : TLine) : SecFrame p (p.handleSourceDirectives ln).1 := by
  unfold TParser.handleSourceDirectives
  split
  · exact ⟨⟨_, _, _, _, _, _, _, _, rfl⟩, .refl _, fun _ => rfl⟩
  · split
    · exact frame_handleFiledef ‹_›
    · split
      · exact frame_handleSource ‹_›
      · split
        · exact frame_handleStabs ‹_›
        · split
          · exact frame_handle6502 ‹_›
          · split
            · exact frame_handleD2 ‹_›
            · exact .refl _

theorem frame_handleSection (p : TParser) (n : Nat) (line : Str) : SecFrame p (p.handleSection n line) := by
  unfold TParser.handleSection
  split
  · exact ⟨⟨_, _, _, _, _, _, _, _, rfl⟩, .refl _, id⟩
  · exact .refl _

theorem frame_sec (p : TParser) : SecFrame p.nested p.sec := by
  have h := (frame_pre p).trans (frame_handleSourceDirectives p.pre p.newLine)
  unfold TParser.sec
  split
  · exact h.trans (frame_handleSection _ _ _)
  · exact h

theorem ite_and {α : Type} (a b : Bool) (x y z : α) :
    (if a = true then (if b = true then x else y) else z) =
      if (a && b) = true then x else if a = true then y else z := by
  cases a <;> cases b <;> rfl

theorem eolBody_eq (L : Locale) (p : TParser) : p.start.eolBody L p.nextId =
    if p.atProc && p.filter.directives then p.pre.clear else p.pre.eolSource L p.newLine p.st.text := by
  have h1 : p.start.eolBody L p.nextId = if p.atProc = true then
      (if p.filter.directives = true then p.nested.markPreviousInternalLabelAsInsideProc.clear
        else p.nested.markPreviousInternalLabelAsInsideProc.eolSource L p.newLine p.st.text)
      else p.nested.eolSource L p.newLine p.st.text := rfl
  rw [h1, ite_and]
  unfold TParser.pre
  cases p.atProc
  · simp
  · simp

theorem eolSource_eq (L : Locale) (p : TParser) (raw : Str) :
    p.pre.eolSource L p.newLine raw = p.sec.eolLibrary L p.newLine raw p.handled := by
  unfold TParser.eolSource TParser.sec TParser.handled
  rfl

theorem eolLabel_eq (L : Locale) (p : TParser) :
    p.sec'.eolLabel L p.newLine p.handled = p.lab.1.eolDirective L p.lab.2 p.handled := by
  unfold TParser.eolLabel TParser.lab
  split
  · rfl
  · rfl

theorem eolDirective_eq (L : Locale) (p : TParser) (ln dl : TLine) (handled : Bool)
    (h : dl = if handled = true then ln else { ln with isDirective := isDirective ln.text }) :
    p.eolDirective L ln handled =
      if p.st.inNvccDef = true then
        (if isCudaEndDef ln.text = true then { p with st := { p.st with inNvccDef := false } } else p).eolFinish L ln
      else if (!ln.isLabel && !ln.isData) = true then
        (if (dl.isDirective && !isInstOpcode dl.text) = true then
          (if (p.extractUsedLabelsFromDirective dl.id dl.text).filter.directives = true then
            { p.extractUsedLabelsFromDirective dl.id dl.text with
              st := { (p.extractUsedLabelsFromDirective dl.id dl.text).st with
                filteredLines := (p.extractUsedLabelsFromDirective dl.id dl.text).st.filteredLines ++ [dl] } }.clear
          else (p.extractUsedLabelsFromDirective dl.id dl.text).eolFinish L dl)
        else p.eolFinish L dl)
      else p.eolFinish L ln := by
  subst h
  rfl

/-- Case analysis over the outcomes of `eol`. -/
theorem eol_elim (L : Locale) {P : TParser → Prop} (p : TParser) (hb : Basic p)
    (block : p.filter.commentOnly = true → (p.st.hasStartedCommentBlock = true ∨ startCommentBlock p.st.text = true) →
      P { p.start with st := { p.st with hasStartedCommentBlock := !endCommentBlock p.st.text, text := [] } })
    (blank : (p.filter.commentOnly = true → p.st.hasStartedCommentBlock = false ∧ startCommentBlock p.st.text = false) →
      isEmptyOrJustWhitespace p.st.text = true → P (p.start.maybeAddBlank (p.nextId + 1)))
    (proc : (p.filter.commentOnly = true → p.st.hasStartedCommentBlock = false ∧ startCommentBlock p.st.text = false) →
      isEmptyOrJustWhitespace p.st.text = false → p.atProc = true → p.filter.directives = true → P p.pre.clear)
    (lib : (p.filter.commentOnly = true → p.st.hasStartedCommentBlock = false ∧ startCommentBlock p.st.text = false) →
      isEmptyOrJustWhitespace p.st.text = false → (p.filter.directives = true → p.atProc = false) →
      p.filter.libraryFunctions = true → P p.sec.clear)
    (comment : (p.filter.commentOnly = true → p.st.hasStartedCommentBlock = false ∧ startCommentBlock p.st.text = false) →
      isEmptyOrJustWhitespace p.st.text = false → (p.filter.directives = true → p.atProc = false) →
      p.filter.libraryFunctions = false → p.filter.commentOnly = true →
      ((isJustComments p.st.text = true ∧ p.st.inNvccCode = false) ∨
        (isJustNvccComments p.st.text = true ∧ p.st.inNvccCode = true)) → P p.sec'.clear)
    (directive : (p.filter.commentOnly = true → p.st.hasStartedCommentBlock = false ∧ startCommentBlock p.st.text = false) →
      isEmptyOrJustWhitespace p.st.text = false → (p.filter.directives = true → p.atProc = false) →
      p.filter.libraryFunctions = false →
      p.lab.1.st.inNvccDef = false → p.lab.2.isLabel = false → p.lab.2.isData = false →
      p.dirLine.isDirective = true → isInstOpcode p.newLine.text = false → p.filter.directives = true →
      (p.filter.commentOnly = true → (p.st.inNvccCode = false → isJustComments p.st.text = false) ∧
        (p.st.inNvccCode = true → isJustNvccComments p.st.text = false)) →
      P (let q := p.lab.1.extractUsedLabelsFromDirective p.newLine.id p.newLine.text
        { q with st := { q.st with filteredLines := q.st.filteredLines ++ [p.dirLine] } }.clear))
    (finish : (p.filter.commentOnly = true → p.st.hasStartedCommentBlock = false ∧ startCommentBlock p.st.text = false) →
      isEmptyOrJustWhitespace p.st.text = false → (p.filter.directives = true → p.atProc = false) →
      p.filter.libraryFunctions = false →
      (p.filter.commentOnly = true → (p.st.inNvccCode = false → isJustComments p.st.text = false) ∧
        (p.st.inNvccCode = true → isJustNvccComments p.st.text = false)) →
      ∀ q ln,
        ((p.lab.1.st.inNvccDef = true ∧ ln = p.lab.2 ∧
            q = if isCudaEndDef p.newLine.text then { p.lab.1 with st := { p.lab.1.st with inNvccDef := false } } else p.lab.1) ∨
         (p.lab.1.st.inNvccDef = false ∧ p.lab.2.isLabel = false ∧ p.lab.2.isData = false ∧ ln = p.dirLine ∧
            p.dirLine.isDirective = true ∧ isInstOpcode p.newLine.text = false ∧ p.filter.directives = false ∧
            q = p.lab.1.extractUsedLabelsFromDirective p.newLine.id p.newLine.text) ∨
         (p.lab.1.st.inNvccDef = false ∧ p.lab.2.isLabel = false ∧ p.lab.2.isData = false ∧ ln = p.dirLine ∧
            (p.dirLine.isDirective = false ∨ isInstOpcode p.newLine.text = true) ∧ q = p.lab.1) ∨
         (p.lab.1.st.inNvccDef = false ∧ (p.lab.2.isLabel = true ∨ p.lab.2.isData = true) ∧ ln = p.lab.2 ∧ q = p.lab.1)) →
        P (q.eolFinish L ln)) :
    P (p.eol L) := by
  have hfilter : ∀ {q}, SecFrame p.nested q → q.filter = p.filter := by
    rintro q ⟨⟨_, _, _, _, _, _, _, _, rfl⟩, -, -⟩; rfl
  have hsecf := hfilter (frame_sec p)
  have hnv : p.sec.st.inNvccCode = p.st.inNvccCode := by
    obtain ⟨⟨_, _, _, _, _, _, _, _, e⟩, -, -⟩ := frame_sec p; rw [e]; rfl
  have hfn : p.sec.st.currentFilename = p.st.currentFilename := by
    obtain ⟨⟨_, _, _, _, _, _, _, _, e⟩, -, -⟩ := frame_sec p; rw [e]; rfl
  have hki : p.sec.st.keepInlineCode = p.st.keepInlineCode := by
    obtain ⟨⟨_, _, _, _, _, _, _, _, e⟩, -, -⟩ := frame_sec p; rw [e]; rfl
  have hown : p.sec.st.lastOwnSourceLine = 0 := (frame_sec p).own hb.own
  have hlines : p.filter.libraryFunctions = true → p.sec.lines = [] := by
    intro h
    have := (frame_sec p).lines.length
    rw [show p.nested.lines = p.lines from rfl, (hb.lib h).1] at this
    exact List.length_eq_zero_iff.1 this.symm
  unfold TParser.eol
  simp only
  change P (if p.filter.commentOnly && (p.st.hasStartedCommentBlock || startCommentBlock p.st.text) then _
    else if isEmptyOrJustWhitespace p.st.text then p.start.maybeAddBlank (p.nextId + 1) else p.start.eolBody L p.nextId)
  split
  · rename_i h
    simp only [Bool.and_eq_true, Bool.or_eq_true] at h
    exact block h.1 h.2
  · rename_i h
    have h0 : p.filter.commentOnly = true → p.st.hasStartedCommentBlock = false ∧ startCommentBlock p.st.text = false := by
      intro hc
      simpa [hc] using h
    split
    · exact blank h0 ‹_›
    · rename_i h1
      have h1 : isEmptyOrJustWhitespace p.st.text = false := by simpa using h1
      rw [eolBody_eq]
      split
      · rename_i h2
        rw [Bool.and_eq_true] at h2
        exact proc h0 h1 h2.1 h2.2
      · rename_i h2
        have h2 : p.filter.directives = true → p.atProc = false := by
          intro hd; simpa [hd] using h2
        rw [eolSource_eq]
        unfold TParser.eolLibrary
        have cond : (p.sec.filter.libraryFunctions && p.sec.st.lastOwnSourceLine == 0 && p.sec.st.currentFilename.isEmpty) =
            p.filter.libraryFunctions := by simp [hsecf, hown, hfn, hb.fname]
        rw [cond]
        split
        · rename_i h3
          have : p.sec.maybeRemovePrevious = p.sec := by
            unfold TParser.maybeRemovePrevious
            rw [hlines h3]
            split <;> rfl
          simp only [this, hki, (hb.lib h3).2]
          exact lib h0 h1 h2 h3
        · rename_i h3
          have h3 : p.filter.libraryFunctions = false := by simpa using h3
          change P (p.sec'.eolComment L p.newLine p.st.text p.handled)
          unfold TParser.eolComment
          have e1 : p.sec'.filter = p.filter := hsecf
          have e2 : p.sec'.st.inNvccCode = p.st.inNvccCode := hnv
          rw [e1, e2]
          split
          · rename_i h4
            simp only [Bool.and_eq_true, Bool.or_eq_true, Bool.not_eq_true'] at h4
            exact comment h0 h1 h2 h3 h4.1 h4.2
          · rename_i h4
            have h4 : p.filter.commentOnly = true → (p.st.inNvccCode = false → isJustComments p.st.text = false) ∧
                (p.st.inNvccCode = true → isJustNvccComments p.st.text = false) := by
              intro hc
              rw [hc] at h4
              constructor
              · intro hn; simpa [hn] using h4
              · intro hn; simpa [hn] using h4
            have hxf : (p.lab.1.extractUsedLabelsFromDirective p.newLine.id p.newLine.text).filter = p.filter := by
              rw [extractDirective_filter, lab_filter, hsecf]
            rw [eolLabel_eq, eolDirective_eq L _ _ p.dirLine _ rfl, dirLine_text, dirLine_id, lab_text, hxf]
            split
            · rename_i h5
              exact finish h0 h1 h2 h3 h4 _ _ (.inl ⟨h5, rfl, rfl⟩)
            · rename_i h5
              have h5 : p.lab.1.st.inNvccDef = false := by simpa using h5
              split
              · rename_i h6
                simp only [Bool.and_eq_true, Bool.not_eq_true'] at h6
                split
                · rename_i h7
                  simp only [Bool.and_eq_true, Bool.not_eq_true'] at h7
                  split
                  · exact directive h0 h1 h2 h3 h5 h6.1 h6.2 h7.1 h7.2 ‹_› h4
                  · rename_i h8
                    exact finish h0 h1 h2 h3 h4 _ _ (.inr (.inl ⟨h5, h6.1, h6.2, rfl, h7.1, h7.2, by simpa using h8, rfl⟩))
                · rename_i h7
                  refine finish h0 h1 h2 h3 h4 _ _ (.inr (.inr (.inl ⟨h5, h6.1, h6.2, rfl, ?_, rfl⟩)))
                  cases hdd : p.dirLine.isDirective
                  · exact .inl rfl
                  · right; simpa [hdd] using h7
              · rename_i h6
                refine finish h0 h1 h2 h3 h4 _ _ (.inr (.inr (.inr ⟨h5, ?_, rfl, rfl⟩)))
                cases hh : p.lab.2.isLabel
                · right; simpa [hh] using h6
                · exact .inl rfl

end AsmParser
