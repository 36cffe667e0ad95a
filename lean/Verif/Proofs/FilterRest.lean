/-
Helper lemmas: which fields of the filter text mode looks at when it reads.
-/
import Verif.Model.AsmText

namespace AsmParser

attribute [local irreducible] Re.search Re.fullMatch

/-- The filter with the fields of `g` that reading does not look at. -/
def Filter.withRest (f g : Filter) : Filter :=
  { f with binary := g.binary, unusedLabels := g.unusedLabels, plt := g.plt, dontMaskFilenames := g.dontMaskFilenames,
           compatmode := g.compatmode, codeOnly := g.codeOnly }

/-- The same parser with these fields of its filter from `g`. -/
def TParser.withRest (g : Filter) (p : TParser) : TParser := { p with filter := p.filter.withRest g }

variable (g : Filter) (p : TParser)

theorem amend_rest (src : TSource) : (p.withRest g).amendPreviousLinesWith src = (p.amendPreviousLinesWith src).withRest g := rfl

theorem handleFiledef_rest (t : Str) : (p.withRest g).handleFiledef t = (p.handleFiledef t).map (TParser.withRest g) := by
  unfold TParser.handleFiledef
  rw [Option.map_map]; rfl

theorem handleSource_rest (t : Str) : (p.withRest g).handleSource t = (p.handleSource t).map (TParser.withRest g) := by
  unfold TParser.handleSource
  simp only
  split <;> rfl

theorem handleStabs_rest (t : Str) : (p.withRest g).handleStabs t = (p.handleStabs t).map (TParser.withRest g) := by
  unfold TParser.handleStabs
  rw [Option.map_map]
  congr 1
  funext r
  simp only [Function.comp]
  split
  · rfl
  · split <;> rfl

theorem handle6502_rest (id : Nat) (t : Str) : (p.withRest g).handle6502 id t = (p.handle6502 id t).map (TParser.withRest g) := by
  unfold TParser.handle6502
  rw [Option.map_map]
  congr 1
  funext r
  simp only [Function.comp]
  split <;> rfl

theorem handleD2_rest (id : Nat) (t : Str) : (p.withRest g).handleD2 id t = (p.handleD2 id t).map (TParser.withRest g) := by
  unfold TParser.handleD2
  split
  · rfl
  · rw [Option.map_map]; rfl

theorem handleSection_rest (id : Nat) (t : Str) : (p.withRest g).handleSection id t = (p.handleSection id t).withRest g := by
  unfold TParser.handleSection
  split <;> rfl

theorem directiveLabels_rest (id : Nat) (t : Str) :
    (p.withRest g).extractUsedLabelsFromDirective id t = (p.extractUsedLabelsFromDirective id t).withRest g := by
  unfold TParser.extractUsedLabelsFromDirective
  split
  · rfl
  · split <;> rfl

theorem aliasing_rest (l : TLine) : (p.withRest g).handleLabelAliasing l = (p.handleLabelAliasing l).withRest g := by
  have e : (p.withRest g).st = p.st := rfl
  unfold TParser.handleLabelAliasing
  simp only [e]
  cases p.st.previousLabelOnSameAddress.s.isEmpty <;> cases l.isAssignment <;> cases l.isLabel <;> cases (l.hasOpcode || l.isData) <;> rfl

theorem definition_rest (l : TLine) :
    (p.withRest g).handleLabelDefinition l = ((p.handleLabelDefinition l).1.withRest g, (p.handleLabelDefinition l).2) := by
  unfold TParser.handleLabelDefinition
  split <;> rfl

theorem eolFinish_rest (L : Locale) (l : TLine) : (p.withRest g).eolFinish L l = (p.eolFinish L l).withRest g := by
  have e1 : ∀ (p : TParser) l, ((p.withRest g).extractUsedLabelsFromOpcodeLine L l) =
      ((p.extractUsedLabelsFromOpcodeLine L l).1.withRest g, (p.extractUsedLabelsFromOpcodeLine L l).2) := fun _ _ => rfl
  have e2 : ∀ (p : TParser) l, ((p.withRest g).extractUsedLabelsFromDataLine L l) =
      ((p.extractUsedLabelsFromDataLine L l).1.withRest g, (p.extractUsedLabelsFromDataLine L l).2) := fun _ _ => rfl
  have e : ∀ (p : TParser), (p.withRest g).st = p.st := fun _ => rfl
  unfold TParser.eolFinish
  simp only [e, e1]
  split
  · simp only [e2]
    split <;> simp only [e, aliasing_rest] <;> rfl
  · simp only [e2]
    split <;> simp only [e, aliasing_rest] <;> rfl

theorem eolDirective_rest (L : Locale) (l : TLine) (h : Bool) : (p.withRest g).eolDirective L l h = (p.eolDirective L l h).withRest g := by
  have e : ∀ (p : TParser), (p.withRest g).st = p.st := fun _ => rfl
  have e1 : ∀ (p : TParser), (p.withRest g).filter.directives = p.filter.directives := fun _ => rfl
  unfold TParser.eolDirective
  simp only [e]
  split
  · rw [← eolFinish_rest]
    split <;> rfl
  · generalize (if h = true then l else { l with isDirective := isDirective l.text }) = m
    split
    · simp only [directiveLabels_rest, e1]
      generalize p.extractUsedLabelsFromDirective m.id m.text = q
      split
      · split
        · rfl
        · rw [eolFinish_rest]
      · rw [eolFinish_rest]
    · rw [eolFinish_rest]

theorem eolLabel_rest (L : Locale) (l : TLine) (h : Bool) : (p.withRest g).eolLabel L l h = (p.eolLabel L l h).withRest g := by
  unfold TParser.eolLabel
  simp only [definition_rest, eolDirective_rest]
  split <;> rfl

theorem eolComment_rest (L : Locale) (l : TLine) (raw : Str) (h : Bool) :
    (p.withRest g).eolComment L l raw h = (p.eolComment L l raw h).withRest g := by
  have e : (p.withRest g).st = p.st := rfl
  have e1 : (p.withRest g).filter.commentOnly = p.filter.commentOnly := rfl
  unfold TParser.eolComment
  simp only [e, e1, eolLabel_rest]
  split <;> rfl

theorem removePrevious_rest : (p.withRest g).maybeRemovePrevious = p.maybeRemovePrevious.withRest g := by
  have e : (p.withRest g).st = p.st := rfl
  have e1 : (p.withRest g).lines = p.lines := rfl
  unfold TParser.maybeRemovePrevious
  simp only [e, e1]
  split
  · split
    · rfl
    · split
      · rfl
      · split <;> rfl
  · rfl

theorem eolLibrary_rest (L : Locale) (l : TLine) (raw : Str) (h : Bool) :
    (p.withRest g).eolLibrary L l raw h = (p.eolLibrary L l raw h).withRest g := by
  have e : ∀ (p : TParser), (p.withRest g).st = p.st := fun _ => rfl
  have e1 : (p.withRest g).filter.libraryFunctions = p.filter.libraryFunctions := rfl
  unfold TParser.eolLibrary
  simp only [e, e1, removePrevious_rest, eolComment_rest]
  split
  · split <;> rfl
  · exact eolComment_rest g { p with st := { p.st with mayRemovePreviousLabel := true } } L l raw h

theorem directives_rest (l : TLine) :
    (p.withRest g).handleSourceDirectives l = ((p.handleSourceDirectives l).1.withRest g, (p.handleSourceDirectives l).2) := by
  have e : (p.withRest g).st = p.st := rfl
  unfold TParser.handleSourceDirectives
  simp only [e, handleFiledef_rest, handleSource_rest, handleStabs_rest, handle6502_rest, handleD2_rest]
  split
  · rfl
  · cases p.handleFiledef l.text <;> try rfl
    cases p.handleSource l.text <;> try rfl
    cases p.handleStabs l.text <;> try rfl
    cases p.handle6502 l.id l.text <;> try rfl
    cases p.handleD2 l.id l.text <;> rfl

theorem eolSource_rest (L : Locale) (l : TLine) (raw : Str) : (p.withRest g).eolSource L l raw = (p.eolSource L l raw).withRest g := by
  unfold TParser.eolSource
  simp only [directives_rest, handleSection_rest]
  rw [← eolLibrary_rest]
  split <;> rfl

theorem eolBody_rest (L : Locale) (id : Nat) : (p.withRest g).eolBody L id = (p.eolBody L id).withRest g := by
  let q : TParser := { p with st := { p.st with inCustomAssembly := nesting p.st.inCustomAssembly p.st.text } }
  let ln : TLine := { id, text := lineText q.filter q.st.inCustomAssembly p.st.text }
  show (if startProcBlock ln.text && q.st.currentSourceRef.line == 0 then
      if q.filter.directives then (q.markPreviousInternalLabelAsInsideProc.withRest g).clear
      else (q.markPreviousInternalLabelAsInsideProc.withRest g).eolSource L ln p.st.text
    else (q.withRest g).eolSource L ln p.st.text) = TParser.withRest g (
    if startProcBlock ln.text && q.st.currentSourceRef.line == 0 then
      if q.filter.directives then q.markPreviousInternalLabelAsInsideProc.clear
      else q.markPreviousInternalLabelAsInsideProc.eolSource L ln p.st.text
    else q.eolSource L ln p.st.text)
  rw [eolSource_rest, eolSource_rest]
  split
  · split <;> rfl
  · rfl

theorem eol_rest (L : Locale) : (p.withRest g).eol L = (p.eol L).withRest g := by
  let q : TParser := { p with totalLines := p.totalLines + 1, nextId := p.nextId + 2 }
  have hb : ∀ (q : TParser) (i : Nat), (q.withRest g).maybeAddBlank i = (q.maybeAddBlank i).withRest g := by
    intro q i
    have e : (q.withRest g).lines = q.lines := rfl
    unfold TParser.maybeAddBlank
    simp only [e]
    split
    · rfl
    · split <;> rfl
  show (if q.filter.commentOnly && (q.st.hasStartedCommentBlock || startCommentBlock q.st.text) then
      ({ q with st := { q.st with hasStartedCommentBlock := !endCommentBlock q.st.text } }.clear).withRest g
    else if isEmptyOrJustWhitespace q.st.text then (q.withRest g).maybeAddBlank (p.nextId + 1)
    else (q.withRest g).eolBody L p.nextId) = TParser.withRest g (
    if q.filter.commentOnly && (q.st.hasStartedCommentBlock || startCommentBlock q.st.text) then
      { q with st := { q.st with hasStartedCommentBlock := !endCommentBlock q.st.text } }.clear
    else if isEmptyOrJustWhitespace q.st.text then q.maybeAddBlank (p.nextId + 1)
    else q.eolBody L p.nextId)
  rw [eolBody_rest, hb]
  split
  · rfl
  · split <;> rfl

theorem feed_rest (L : Locale) (c : Byte) : (p.withRest g).feed L c = (p.feed L c).withRest g := by
  unfold TParser.feed
  split
  · exact eol_rest g p L
  · rfl

theorem readStream_rest (L : Locale) (s : Str) : (p.withRest g).readStream L s = (p.readStream L s).withRest g := by
  have hf : ∀ (s : Str) (p : TParser), s.foldl (TParser.feed L) (p.withRest g) = (s.foldl (TParser.feed L) p).withRest g := by
    intro s
    induction s with
    | nil => intro p; rfl
    | cons c s ih => intro p; rw [List.foldl_cons, List.foldl_cons, feed_rest, ih]
  unfold TParser.readStream
  have := hf s { p with totalLines := 0 }
  have e : ({ p.withRest g with totalLines := 0 } : TParser) = ({ p with totalLines := 0 } : TParser).withRest g := rfl
  simp only [e, this]
  have e : ∀ (p : TParser), (p.withRest g).st = p.st := fun _ => rfl
  simp only [e]
  split
  · exact eol_rest g _ L
  · rfl

/-- The lines held after reading, the tables and the state do not depend on these fields. -/
theorem read_rest (L : Locale) (f : Filter) (s : Str) :
    (TParser.init (f.withRest g)).readStream L s = ((TParser.init f).readStream L s).withRest g :=
  readStream_rest g (TParser.init f) L s

theorem read_unused (b : Bool) (L : Locale) (f : Filter) (s : Str) : (TParser.init { f with unusedLabels := b }).readStream L s =
    ((TParser.init f).readStream L s).withRest { f with unusedLabels := b } := read_rest { f with unusedLabels := b } L f s

theorem markLoop_rest (o : Order) (n : Nat) (ls : List Str) (v : List Str) :
    TParser.markLoop o n ls (p.withRest g) v = (TParser.markLoop o n ls p v).map fun r => (r.1.withRest g, r.2) := by
  induction ls generalizing p v with
  | nil => rfl
  | cons l ls ih =>
    have e1 : (p.withRest g).lines = p.lines := rfl
    have e2 : (p.withRest g).labelsDefined = p.labelsDefined := rfl
    have e3 : (p.withRest g).usage = p.usage := rfl
    unfold TParser.markLoop
    simp only [e1, e2, e3]
    split
    · exact ih { p with ub := true } _
    · split
      · rfl
      · rename_i l' _ _
        exact ih { p with lines := p.lines.set ((p.labelsDefined.lookup l).getD 0 - 1) l' } _

theorem mark_rest (o : Order) (n : Nat) (v : List Str) :
    TParser.markLabelUsage o n (p.withRest g).filterNonLabels v =
      (TParser.markLabelUsage o n p.filterNonLabels v).map fun r => (r.1.withRest g, r.2) :=
  markLoop_rest g p.filterNonLabels o n _ v

/-- The call with other fields of the filter: the same up to the removal of lines. -/
theorem fromStream_rest (L : Locale) (o : Order) (n : Nat) (f : Filter) (s : Str) (v : List Str) :
    (TParser.init (f.withRest g)).fromStream L o n s v =
      (TParser.markLabelUsage o n ((TParser.init f).readStream L s).filterNonLabels v).map fun r => ((r.1.withRest g).removeUnused, r.2) := by
  unfold TParser.fromStream
  rw [read_rest, mark_rest]
  cases TParser.markLabelUsage o n ((TParser.init f).readStream L s).filterNonLabels v <;> rfl

/-- With the filter for unused labels there are fewer lines left; those that are left are the same. -/
theorem removeLoop_fewer (q : TParser) (hf : ∃ h : Filter, p.filter = { h with unusedLabels := true } ∧ q.filter = { h with unusedLabels := false })
    (h1 : q.labelsDefined = p.labelsDefined) (h2 : q.files = p.files) (r r' : RemState) (hr : r'.remove = false)
    (e1 : r'.isUsed = r.isUsed) (e2 : r'.isUsedThroughAlias = r.isUsedThroughAlias) (e3 : r'.isDataUsedThroughAlias = r.isDataUsedThroughAlias)
    (ls : List TLine) : ((p.removeLoop r ls).1).Sublist (q.removeLoop r' ls).1 := by
  obtain ⟨h, hp, hq⟩ := hf
  induction ls generalizing r r' with
  | nil => exact .slnil
  | cons l ls ih =>
    have hk : q.finishKept l = p.finishKept l := by unfold TParser.finishKept; rw [h1, h2]
    have key : (remLabel q.filter q.usage r' l).1.remove = false ∧ (remLabel q.filter q.usage r' l).2 = false ∧
        (remLabel q.filter q.usage r' l).1.isUsed = (remLabel p.filter p.usage r l).1.isUsed ∧
        (remLabel q.filter q.usage r' l).1.isUsedThroughAlias = (remLabel p.filter p.usage r l).1.isUsedThroughAlias ∧
        (remLabel q.filter q.usage r' l).1.isDataUsedThroughAlias = (remLabel p.filter p.usage r l).1.isDataUsedThroughAlias := by
      rw [hp, hq]
      unfold remLabel
      simp only [Bool.false_eq_true, if_false, if_true]
      split
      · refine ⟨hr, rfl, ?_⟩
        split
        · exact ⟨rfl, rfl, rfl⟩
        · split
          · split
            · exact ⟨rfl, rfl, rfl⟩
            · split
              · exact ⟨rfl, rfl, rfl⟩
              · split
                · exact ⟨rfl, rfl, rfl⟩
                · split
                  · exact ⟨rfl, rfl, rfl⟩
                  · split <;> exact ⟨rfl, rfl, rfl⟩
          · exact ⟨rfl, rfl, rfl⟩
      · exact ⟨hr, rfl, e1, e2, e3⟩
    obtain ⟨k1, k2, k3, k4, k5⟩ := key
    have hs := ih _ _ k1 k3 k4 k5
    have hdrop : remDrop q.filter (remLabel q.filter q.usage r' l).1 (remLabel q.filter q.usage r' l).2 l = true →
        remDrop p.filter (remLabel p.filter p.usage r l).1 (remLabel p.filter p.usage r l).2 l = true := by
      unfold remDrop
      rw [k1, k2, k3, k4, k5, hp, hq]
      intro h
      simp only [Bool.false_or] at h
      simp only [h, Bool.or_true]
    unfold TParser.removeLoop
    simp only
    cases hd : remDrop q.filter (remLabel q.filter q.usage r' l).1 (remLabel q.filter q.usage r' l).2 l with
    | true =>
      rw [hdrop hd]
      exact hs
    | false =>
      simp only [Bool.false_eq_true, if_false, hk]
      split
      · exact hs.cons _
      · exact hs.cons_cons _

end AsmParser
