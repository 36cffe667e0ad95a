/-
Helper lemmas: what `TParser.eol` does to the list of lines.
-/
import Verif.Proofs.TextShape

namespace AsmParser

attribute [local irreducible] Re.search Re.fullMatch

/-! ### Frames -/

/-- The line that `eolFinish` stores. -/
def finLine (L : Locale) (q : TParser) (ln : TLine) : TLine :=
  { ln with
    isInlineAsm := decide (q.st.inCustomAssembly > 0)
    hasOpcode := hasOpcode ln.text q.st.inNvccCode
    labels := if !ln.isLabel && (hasOpcode ln.text q.st.inNvccCode || ln.isData) then getUsedLabelsInLine L ln.text else []
    closestParentLabel :=
      if ln.isAssignment || ln.label == q.st.previousParentLabel.s then [] else q.st.previousParentLabel.s
    source := q.st.currentSourceRef
    sect := q.st.currentSection }

theorem handleLabelAliasing_frame (p : TParser) (ln : TLine) : ∃ us st pl, p.handleLabelAliasing ln =
    { p with usage := us, stored := st, st := { p.st with previousLabelOnSameAddress := pl } } := by
  unfold TParser.handleLabelAliasing
  simp only
  split <;> split <;> (try split) <;> (try split) <;> (try split) <;> exact ⟨_, _, _, rfl⟩

/-- The two steps of `eolFinish` that collect label references. -/
def collect (L : Locale) (q : TParser) (ln : TLine) : TParser × TLine :=
  let r := if !ln.isLabel && ln.hasOpcode then q.extractUsedLabelsFromOpcodeLine L ln else (q, ln)
  if !r.2.isLabel && r.2.isData then r.1.extractUsedLabelsFromDataLine L r.2 else r

theorem collect_line (L : Locale) (q : TParser) (ln : TLine) (h : ln.labels = []) : (collect L q ln).2 =
    { ln with labels := if !ln.isLabel && (ln.hasOpcode || ln.isData) then getUsedLabelsInLine L ln.text else [] } := by
  cases ln
  unfold collect TParser.extractUsedLabelsFromOpcodeLine TParser.extractUsedLabelsFromDataLine
  simp only at h
  subst h
  rename_i lb _ _ _ _ _ _ dt _ oc _ _
  cases lb <;> cases oc <;> cases dt <;> rfl

theorem collect_frame (L : Locale) (q : TParser) (ln : TLine) :
    ∃ us st, (collect L q ln).1 = { q with usage := us, stored := st } := by
  cases ln
  unfold collect TParser.extractUsedLabelsFromOpcodeLine TParser.extractUsedLabelsFromDataLine
  rename_i lb _ _ _ _ _ _ dt _ oc _ _
  cases lb <;> cases oc <;> cases dt <;> exact ⟨_, _, rfl⟩

theorem eolFinish_frame (L : Locale) (q : TParser) (ln : TLine) : ∃ us st pl, q.eolFinish L ln =
    { q with usage := us, stored := st, lines := q.lines ++ [finLine L q ln],
             st := { q.st with previousLabelOnSameAddress := pl, text := [] } } := by
  have h := collect_line L q
    { ln with isInlineAsm := decide (q.st.inCustomAssembly > 0), hasOpcode := hasOpcode ln.text q.st.inNvccCode, labels := [] } rfl
  have h' := collect_frame L q
    { ln with isInlineAsm := decide (q.st.inCustomAssembly > 0), hasOpcode := hasOpcode ln.text q.st.inNvccCode, labels := [] }
  have e : q.eolFinish L ln =
    (let r := collect L q { ln with isInlineAsm := decide (q.st.inCustomAssembly > 0),
                                    hasOpcode := hasOpcode ln.text q.st.inNvccCode, labels := [] }
     let p := r.1
     let ln := { r.2 with
        closestParentLabel :=
          if r.2.isAssignment || r.2.label == p.st.previousParentLabel.s then [] else p.st.previousParentLabel.s
        source := p.st.currentSourceRef
        sect := p.st.currentSection }
     let p := p.handleLabelAliasing ln
     { p with lines := p.lines ++ [ln], stored := p.st.previousParentLabel.own :: p.stored }.clear) := rfl
  obtain ⟨us, st, h'⟩ := h'
  rw [e]
  simp only
  rw [h, h']
  simp only
  obtain ⟨us', st', pl, h3⟩ := handleLabelAliasing_frame { q with usage := us, stored := st } (finLine L q ln)
  refine ⟨us', q.st.previousParentLabel.own :: st', pl, ?_⟩
  show { ({ q with usage := us, stored := st } : TParser).handleLabelAliasing (finLine L q ln) with
    lines := (({ q with usage := us, stored := st } : TParser).handleLabelAliasing (finLine L q ln)).lines ++ [finLine L q ln]
    stored := (({ q with usage := us, stored := st } : TParser).handleLabelAliasing (finLine L q ln)).st.previousParentLabel.own ::
      (({ q with usage := us, stored := st } : TParser).handleLabelAliasing (finLine L q ln)).stored }.clear = _
  rw [h3]
  rfl

theorem extractDirective_frame (p : TParser) (n : Nat) (t : Str) :
    ∃ us st, p.extractUsedLabelsFromDirective n t = { p with usage := us, stored := st } := by
  unfold TParser.extractUsedLabelsFromDirective
  split
  · exact ⟨_, _, rfl⟩
  · split <;> exact ⟨_, _, rfl⟩

/-- What `handleLabelDefinition` does. -/
theorem handleLabelDefinition_frame (p : TParser) (ln : TLine) :
    (∃ l a c st' st, getLabelFromLine ln.text = some (l, a, c) ∧
      p.handleLabelDefinition ln = ({ p with st := st', stored := st, labelsDefined := assocSet l (p.lines.length + 1) p.labelsDefined },
        { ln with label := l, isLabel := true, isInternalLabel := isInternalLabel l, isAssignment := a }) ∧
      (∃ nd nc pl pp, st' = { p.st with inNvccDef := nd, inNvccCode := nc, previousLabel := pl, previousParentLabel := pp } ∧
        nd = (p.st.inNvccDef || c) ∧ nc = (p.st.inNvccCode || c))) ∨
    (getLabelFromLine ln.text = none ∧
      p.handleLabelDefinition ln = (p, { ln with isLabel := false, isInternalLabel := false })) := by
  unfold TParser.handleLabelDefinition
  cases h : getLabelFromLine ln.text with
  | none => exact .inr ⟨rfl, rfl⟩
  | some r => exact .inl ⟨_, _, _, _, _, rfl, rfl, _, _, _, _, rfl, rfl, rfl⟩

/-! ### The effect of `eol` on the lines -/

/-- Facts about a line that `eol` appends. -/
structure Kept (L : Locale) (p p' : TParser) (ln : TLine) : Prop where
  id : ln.id = p.nextId
  text : ln.text = p.newLine.text
  raw : isEmptyOrJustWhitespace p.st.text = false
  lib : p.filter.libraryFunctions = false
  block : p.filter.commentOnly = true → p.st.hasStartedCommentBlock = false ∧ startCommentBlock p.st.text = false
  comment : p.filter.commentOnly = true → p.st.inNvccCode = false → isJustComments p.st.text = false
  label : (ln.isLabel = true ∧ p.handled = false ∧
      (∃ c, getLabelFromLine ln.text = some (ln.label, ln.isAssignment, c) ∧ p'.st.inNvccCode = (p.st.inNvccCode || c)) ∧
      ln.isInternalLabel = isInternalLabel ln.label ∧
      p'.labelsDefined = assocSet ln.label (p.lines.length + 1) p.labelsDefined) ∨
    (ln.isLabel = false ∧ (p.handled = true ∨ getLabelFromLine ln.text = none) ∧ ln.label = [] ∧ ln.isAssignment = false ∧
      ln.isInternalLabel = false ∧ p'.labelsDefined = p.labelsDefined ∧ p'.st.inNvccCode = p.st.inNvccCode)
  data : ln.isData = true → isDataDefn ln.text = true ∧ p.handled = false
  data' : p.handled = false → isDataDefn ln.text = true → ln.isData = true
  directive : p.filter.directives = true → ln.isLabel = true ∨ ln.isData = true ∨ isInstOpcode ln.text = true ∨
    p.st.inNvccDef = true ∨ (p.handled = false ∧ isDirective ln.text = false ∧ p.atProc = false)
  refs : ln.labels = if (!ln.isLabel && (hasOpcode ln.text p'.st.inNvccCode || ln.isData)) = true then getUsedLabelsInLine L ln.text
    else []
  unused : ln.isUsed = false ∧ ln.isUsedThroughAlias = false ∧ ln.isUsedDataThroughAlias = false
  inline : ln.isInlineAsm = decide (p.nested.st.inCustomAssembly > 0)
  source : ln.source = p'.st.currentSourceRef
  sect : ln.sect = p'.st.currentSection
  sources : p'.st.currentSourceRef = p.sec.st.currentSourceRef ∧ p'.st.currentSection = p.sec.st.currentSection

/-- Why `eol` may not append a line. -/
inductive Dropped (p : TParser) : Prop
  | blank (h : isEmptyOrJustWhitespace p.st.text = true)
  | library (h : p.filter.libraryFunctions = true)
  | comment (h : p.filter.commentOnly = true) (h' : p.st.hasStartedCommentBlock = true ∨ startCommentBlock p.st.text = true ∨
      (isJustComments p.st.text = true ∧ p.st.inNvccCode = false) ∨ (isJustNvccComments p.st.text = true ∧ p.st.inNvccCode = true))
  | proc (h : p.filter.directives = true) (h' : p.atProc = true)
  | directive (h : p.filter.directives = true) (h' : p.handled = true ∨ isDirective p.newLine.text = true)
      (inst : isInstOpcode p.newLine.text = false) (label : p.handled = true ∨ getLabelFromLine p.newLine.text = none)
      (data : p.handled = true ∨ isDataDefn p.newLine.text = false)

/-- The effect of `eol` on the lines. -/
inductive LineStep (L : Locale) (p p' : TParser) : Prop
  | none (raw : isEmptyOrJustWhitespace p.st.text = true → p'.lines = p.lines)
      (am : Amended p.lines p'.lines) (ld : p'.labelsDefined = p.labelsDefined) (why : Dropped p)
  | blank (l : TLine) (last : p.lines.getLast? = some l) (ne : l.text ≠ []) (eq : p'.lines = p.lines ++ [{ id := p.nextId + 1 }])
      (ld : p'.labelsDefined = p.labelsDefined) (raw : isEmptyOrJustWhitespace p.st.text = true)
  | line (ls : List TLine) (am : Amended p.lines ls) (ln : TLine) (eq : p'.lines = ls ++ [ln]) (kept : Kept L p p' ln)

theorem sec'_frame (p : TParser) : ∃ ls files ub csr pl los csf cs, p.sec' = { p.nested with
    lines := ls, files := files, ub := ub
    st := { p.nested.st with currentSourceRef := csr, previousLabel := pl, lastOwnSourceLine := los,
                             currentSourceFile := csf, currentSection := cs, mayRemovePreviousLabel := true } } ∧
    Amended p.lines ls ∧ csr = p.sec.st.currentSourceRef ∧ cs = p.sec.st.currentSection ∧
    (p.st.lastOwnSourceLine = 0 → los = 0) := by
  obtain ⟨⟨ls, files, ub, csr, pl, los, csf, cs, e⟩, h, h'⟩ := frame_sec p
  rw [e] at h h'
  refine ⟨ls, files, ub, csr, pl, los, csf, cs, ?_, h, ?_, ?_, h'⟩
  · unfold TParser.sec'; rw [e]
  · rw [e]
  · rw [e]

/-- What changes of the parser when the label of a line has been handled. -/
structure LabFrame (p : TParser) : Prop where
  frame : ∃ ld sd ls files ub csr pl los csf cs nd nc pp, p.lab.1 = { p.nested with
    labelsDefined := ld, stored := sd
    lines := ls, files := files, ub := ub
    st := { p.nested.st with currentSourceRef := csr, previousLabel := pl, lastOwnSourceLine := los,
                             currentSourceFile := csf, currentSection := cs, mayRemovePreviousLabel := true,
                             inNvccDef := nd, inNvccCode := nc, previousParentLabel := pp } } ∧
    Amended p.lines ls ∧ csr = p.sec.st.currentSourceRef ∧ cs = p.sec.st.currentSection ∧
    (p.st.lastOwnSourceLine = 0 → los = 0)
  def_ : p.lab.2.isLabel = false → p.lab.1.st.inNvccDef = p.st.inNvccDef
  cuda : (p.lab.1.st.inNvccDef = true ∨ p.lab.1.st.inNvccCode = true) → p.st.inNvccDef = true ∨ p.st.inNvccCode = true ∨
    (p.lab.2.isLabel = true ∧ ∃ l a, getLabelFromLine p.newLine.text = some (l, a, true))
  label : (p.lab.2.isLabel = true ∧ p.handled = false ∧
      (∃ c, getLabelFromLine p.newLine.text = some (p.lab.2.label, p.lab.2.isAssignment, c) ∧
        p.lab.1.st.inNvccCode = (p.st.inNvccCode || c)) ∧
      p.lab.2.isInternalLabel = isInternalLabel p.lab.2.label ∧
      p.lab.1.labelsDefined = assocSet p.lab.2.label (p.lines.length + 1) p.labelsDefined) ∨
    (p.lab.2.isLabel = false ∧ (p.handled = true ∨ getLabelFromLine p.newLine.text = none) ∧ p.lab.2.label = [] ∧
      p.lab.2.isAssignment = false ∧ p.lab.2.isInternalLabel = false ∧ p.lab.1.labelsDefined = p.labelsDefined ∧
      p.lab.1.st.inNvccCode = p.st.inNvccCode)
  data : p.lab.2.isData = (!p.handled && isDataDefn p.newLine.text)
  unused : p.lab.2.isUsed = false ∧ p.lab.2.isUsedThroughAlias = false ∧ p.lab.2.isUsedDataThroughAlias = false

theorem labFrame (p : TParser) : LabFrame p := by
  obtain ⟨ls, files, ub, csr, pl, los, csf, cs, e, h1, h2, h3, h4⟩ := sec'_frame p
  cases hh : p.handled with
  | true =>
    have hl : p.lab = (p.sec', { p.newLine with isData := false, isDirective := true, isLabel := false, isInternalLabel := false }) := by
      unfold TParser.lab; rw [hh]; rfl
    constructor
    · rw [hl]
      exact ⟨_, _, _, _, _, _, _, _, _, _, _, _, _, e, h1, h2, h3, h4⟩
    · rw [hl, e]; intro _; rfl
    · rw [hl, e]; exact fun h => h.elim .inl (.inr ∘ .inl)
    · rw [hl]
      refine .inr ⟨rfl, .inl hh, rfl, rfl, rfl, ?_, ?_⟩ <;> rw [e] <;> rfl
    · rw [hl, hh]; rfl
    · rw [hl]; exact ⟨rfl, rfl, rfl⟩
  | false =>
    have hl : p.lab = ((p.sec'.handleLabelDefinition p.newLine).1,
        { (p.sec'.handleLabelDefinition p.newLine).2 with isData := isDataDefn p.newLine.text, isDirective := false }) := by
      unfold TParser.lab; rw [hh]; rfl
    have hlen : p.sec'.lines.length = p.lines.length := by rw [e]; exact h1.length.symm
    rcases handleLabelDefinition_frame p.sec' p.newLine with ⟨l, a, c, st', st, g, f, nd, nc, pl', pp, hs, hnd, hnc⟩ | ⟨g, f⟩
    · rw [f] at hl
      have ec : p.sec'.st.inNvccCode = p.st.inNvccCode := by rw [e]; rfl
      have el : p.sec'.labelsDefined = p.labelsDefined := by rw [e]; rfl
      constructor
      · rw [hl]
        refine ⟨assocSet l (p.sec'.lines.length + 1) p.sec'.labelsDefined, st, ls, files, ub, csr, pl', los, csf, cs, nd, nc, pp,
          ?_, h1, h2, h3, h4⟩
        show ({ p.sec' with st := st', stored := st, labelsDefined := _ } : TParser) = _
        rw [hs, e]
      · rw [hl]; intro h; exact absurd h (by simp)
      · have ed : p.sec'.st.inNvccDef = p.st.inNvccDef := by rw [e]; rfl
        rw [hl]
        show (st'.inNvccDef = true ∨ st'.inNvccCode = true) → _
        rw [hs]
        show (nd = true ∨ nc = true) → _
        rw [hnd, hnc, ec, ed]
        cases c with
        | true => exact fun _ => .inr (.inr ⟨rfl, l, a, g⟩)
        | false => rw [Bool.or_false, Bool.or_false]; exact fun h => h.elim .inl (.inr ∘ .inl)
      · rw [hl]
        refine .inl ⟨rfl, hh, ⟨c, g, ?_⟩, rfl, ?_⟩
        · show st'.inNvccCode = _
          rw [hs]; show nc = _; rw [hnc, ec]
        · show assocSet l (p.sec'.lines.length + 1) p.sec'.labelsDefined = _
          rw [hlen, el]
      · rw [hl, hh]; rfl
      · rw [hl]; exact ⟨rfl, rfl, rfl⟩
    · rw [f] at hl
      constructor
      · rw [hl]
        exact ⟨_, _, _, _, _, _, _, _, _, _, _, _, _, e, h1, h2, h3, h4⟩
      · rw [hl, e]; intro _; rfl
      · rw [hl, e]; exact fun h => h.elim .inl (.inr ∘ .inl)
      · rw [hl]
        refine .inr ⟨rfl, .inr g, rfl, rfl, rfl, ?_, ?_⟩ <;> rw [e] <;> rfl
      · rw [hl, hh]; rfl
      · rw [hl]; exact ⟨rfl, rfl, rfl⟩

/-- Is the parser inside a block comment after the current line? -/
def TParser.blockAfter (p : TParser) : Bool :=
  if p.filter.commentOnly && (p.st.hasStartedCommentBlock || startCommentBlock p.st.text) then !endCommentBlock p.st.text
  else p.st.hasStartedCommentBlock

theorem blockSame {p : TParser}
    (h0 : p.filter.commentOnly = true → p.st.hasStartedCommentBlock = false ∧ startCommentBlock p.st.text = false) :
    p.st.hasStartedCommentBlock = p.blockAfter := by
  unfold TParser.blockAfter
  rw [if_neg]
  intro h
  rw [Bool.and_eq_true, Bool.or_eq_true] at h
  obtain ⟨h1, h2⟩ := h
  obtain ⟨h3, h4⟩ := h0 h1
  rw [h3, h4] at h2
  exact absurd h2 (by simp)

theorem blockStep {p : TParser} (h : p.filter.commentOnly = true)
    (h' : p.st.hasStartedCommentBlock = true ∨ startCommentBlock p.st.text = true) : (!endCommentBlock p.st.text) = p.blockAfter := by
  unfold TParser.blockAfter
  rw [if_pos]
  rw [Bool.and_eq_true, Bool.or_eq_true]
  exact ⟨h, h'⟩

/-- Everything about one call of `eol`. -/
structure EolStep (L : Locale) (p p' : TParser) : Prop where
  filter : p'.filter = p.filter
  basic : Basic p'
  nextId : p'.nextId = p.nextId + 2
  totalLines : p'.totalLines = p.totalLines + 1
  text : isEmptyOrJustWhitespace p.st.text = false → p'.st.text = []
  carry : p'.st.text = [] ∨ p'.st.text = p.st.text
  filtered : ∃ x, p'.st.filteredLines = p.st.filteredLines ++ x
  cuda : (p'.st.inNvccDef = true ∨ p'.st.inNvccCode = true) → p.st.inNvccDef = true ∨ p.st.inNvccCode = true ∨
    ∃ ln ∈ p'.lines, ∃ l a, getLabelFromLine ln.text = some (l, a, true)
  block : p'.st.hasStartedCommentBlock = p.blockAfter
  asm : p'.st.inCustomAssembly = p.st.inCustomAssembly ∨ p'.st.inCustomAssembly = nesting p.st.inCustomAssembly p.st.text
  lines : LineStep L p p'

/-- The line that is passed to `eolFinish` agrees with `lab.2` except for `isDirective`. -/
theorem dirLine_eq (p : TParser) : p.dirLine = { p.lab.2 with isDirective := p.dirLine.isDirective } := by
  unfold TParser.dirLine
  split <;> rfl

theorem handled_dir (p : TParser) (h : p.dirLine.isDirective = false) : p.handled = false ∧ isDirective p.newLine.text = false := by
  unfold TParser.dirLine at h
  cases hh : p.handled with
  | true =>
    rw [hh] at h
    have : p.lab.2.isDirective = true := by unfold TParser.lab; rw [hh]; rfl
    rw [if_pos rfl, this] at h
    exact absurd h (by simp)
  | false =>
    rw [hh] at h
    refine ⟨rfl, ?_⟩
    rw [← lab_text]
    exact h

/-- The common part of the cases of `eolFinish`. -/
theorem step_finish (L : Locale) (p q : TParser) (ln : TLine) (d : Bool) (hb : Basic p)
    (h0 : p.filter.commentOnly = true → p.st.hasStartedCommentBlock = false ∧ startCommentBlock p.st.text = false)
    (h1 : isEmptyOrJustWhitespace p.st.text = false)
    (h2 : p.filter.libraryFunctions = false)
    (h3 : p.filter.commentOnly = true → (p.st.inNvccCode = false → isJustComments p.st.text = false) ∧
        (p.st.inNvccCode = true → isJustNvccComments p.st.text = false))
    (hq : ∃ us sd nd, q = { p.lab.1 with usage := us, stored := sd, st := { p.lab.1.st with inNvccDef := nd } } ∧
      (nd = true → p.lab.1.st.inNvccDef = true))
    (hln : ln = { p.lab.2 with isDirective := d })
    (hd : p.filter.directives = true → p.lab.2.isLabel = true ∨ p.lab.2.isData = true ∨ isInstOpcode p.newLine.text = true ∨
      p.st.inNvccDef = true ∨ (p.handled = false ∧ isDirective p.newLine.text = false ∧ p.atProc = false)) :
    EolStep L p (q.eolFinish L ln) := by
  obtain ⟨us, sd, nd, rfl, hnd⟩ := hq
  obtain ⟨us', sd', pl', hf⟩ := eolFinish_frame L { p.lab.1 with usage := us, stored := sd, st := { p.lab.1.st with inNvccDef := nd } } ln
  obtain ⟨hfr, -, hcuda, hlab, hdata, hun⟩ := labFrame p
  have htext := lab_text p
  have hid := lab_id p
  generalize p.lab.1 = q at *
  generalize p.lab.2 = l at *
  obtain ⟨ld, sd2, ls, files, ub, csr, pl, los, csf, cs, nd', nc, pp, rfl, a1, a2, a3, a4⟩ := hfr
  subst hln
  rw [hf]
  refine ⟨rfl, ⟨a4 hb.own, hb.fname, ?_⟩, rfl, rfl, fun _ => rfl, .inl rfl, ⟨[], (List.append_nil _).symm⟩, ?_, blockSame h0,
    .inr rfl, ?_⟩
  · intro h; exact absurd (h2.symm.trans h) (by simp)
  · intro h
    have h' : nd' = true ∨ nc = true := h.elim (.inl ∘ hnd) .inr
    rcases hcuda h' with h | h | ⟨-, h⟩
    · exact .inl h
    · exact .inr (.inl h)
    · rw [← htext] at h
      exact .inr (.inr ⟨_, List.mem_append_right _ (List.mem_singleton.2 rfl), h⟩)
  · refine .line ls a1 _ rfl ?_
    constructor
    · exact hid
    · exact htext
    · exact h1
    · exact h2
    · exact h0
    · exact fun h => (h3 h).1
    · show (l.isLabel = true ∧ p.handled = false ∧
        (∃ c, getLabelFromLine l.text = some (l.label, l.isAssignment, c) ∧ _) ∧ _) ∨
        (l.isLabel = false ∧ (p.handled = true ∨ getLabelFromLine l.text = none) ∧ _)
      rw [htext]
      exact hlab
    · show l.isData = true → isDataDefn l.text = true ∧ p.handled = false
      rw [hdata, htext]
      simp only [Bool.and_eq_true, Bool.not_eq_true']
      exact fun h => ⟨h.2, h.1⟩
    · show p.handled = false → isDataDefn l.text = true → l.isData = true
      rw [hdata, htext]
      simp only [Bool.and_eq_true, Bool.not_eq_true']
      exact fun h h' => ⟨h, h'⟩
    · intro h
      have := hd h
      show l.isLabel = true ∨ l.isData = true ∨ isInstOpcode l.text = true ∨ p.st.inNvccDef = true ∨
        (p.handled = false ∧ isDirective l.text = false ∧ p.atProc = false)
      rw [htext]
      exact this
    · rfl
    · exact hun
    · rfl
    · rfl
    · rfl
    · exact ⟨a2, a3⟩

theorem maybeAddBlank_cases (p : TParser) (n : Nat) : p.maybeAddBlank n = p ∨
    ∃ l, p.lines.getLast? = some l ∧ l.text ≠ [] ∧ p.maybeAddBlank n = { p with lines := p.lines ++ [{ id := n }] } := by
  unfold TParser.maybeAddBlank
  split
  · exact .inl rfl
  · rename_i l h
    split
    · exact .inl rfl
    · rename_i h'
      exact .inr ⟨l, h, by simpa using h', rfl⟩

theorem eol_step (L : Locale) (p : TParser) (hb : Basic p) : EolStep L p (p.eol L) := by
  refine eol_elim L p hb ?_ ?_ ?_ ?_ ?_ ?_ ?_
  · intro hco hblk
    exact ⟨rfl, ⟨hb.own, hb.fname, hb.lib⟩, rfl, rfl, fun _ => rfl, .inl rfl, ⟨[], (List.append_nil _).symm⟩,
      fun h => h.elim .inl (.inr ∘ .inl), blockStep hco hblk, .inl rfl,
      .none (fun _ => rfl) (.refl _) rfl (.comment hco (hblk.elim .inl (.inr ∘ .inl)))⟩
  · intro h0 h
    rcases maybeAddBlank_cases p.start (p.nextId + 1) with e | ⟨l, h1, h2, e⟩
    · rw [e]
      refine ⟨rfl, ⟨hb.own, hb.fname, hb.lib⟩, rfl, rfl, fun h' => absurd (h.symm.trans h') (by simp), .inr rfl,
        ⟨[], (List.append_nil _).symm⟩, fun h => h.elim .inl (.inr ∘ .inl), blockSame h0, .inl rfl, .none (fun _ => rfl) (.refl _) rfl (.blank h)⟩
    · rw [e]
      refine ⟨rfl, ⟨hb.own, hb.fname, ?_⟩, rfl, rfl, fun h' => absurd (h.symm.trans h') (by simp), .inr rfl,
        ⟨[], (List.append_nil _).symm⟩, fun h => h.elim .inl (.inr ∘ .inl), blockSame h0, .inl rfl, .blank l h1 h2 rfl rfl h⟩
      intro h'
      rw [show p.start.lines = p.lines from rfl, (hb.lib h').1] at h1
      exact absurd h1 (by simp)
  · intro h0 h hat hdir
    obtain ⟨⟨ls, files, ub, csr, pl, los, csf, cs, e⟩, h1, h2⟩ := frame_pre p
    rw [e] at h1 h2 ⊢
    refine ⟨rfl, ⟨h2 hb.own, hb.fname, ?_⟩, rfl, rfl, fun _ => rfl, .inl rfl, ⟨[], (List.append_nil _).symm⟩,
      fun h => h.elim .inl (.inr ∘ .inl), blockSame h0, .inr rfl,
      .none (fun h' => absurd (h.symm.trans h') (by simp)) h1 rfl (.proc hdir hat)⟩
    intro h'
    refine ⟨?_, (hb.lib h').2⟩
    have := Amended.length h1
    rw [show p.nested.lines = p.lines from rfl, (hb.lib h').1] at this
    exact List.length_eq_zero_iff.1 this.symm
  · intro h0 h _ hl
    obtain ⟨⟨ls, files, ub, csr, pl, los, csf, cs, e⟩, h1, h2⟩ := frame_sec p
    rw [e] at h1 h2 ⊢
    refine ⟨rfl, ⟨h2 hb.own, hb.fname, ?_⟩, rfl, rfl, fun _ => rfl, .inl rfl, ⟨[], (List.append_nil _).symm⟩,
      fun h => h.elim .inl (.inr ∘ .inl), blockSame h0, .inr rfl,
      .none (fun h' => absurd (h.symm.trans h') (by simp)) h1 rfl (.library hl)⟩
    intro h'
    refine ⟨?_, (hb.lib h').2⟩
    have := Amended.length h1
    rw [show p.nested.lines = p.lines from rfl, (hb.lib h').1] at this
    exact List.length_eq_zero_iff.1 this.symm
  · intro h0 h _ hl hco hcm
    obtain ⟨ls, files, ub, csr, pl, los, csf, cs, e, h1, h2, h3, h4⟩ := sec'_frame p
    rw [e]
    refine ⟨rfl, ⟨h4 hb.own, hb.fname, ?_⟩, rfl, rfl, fun _ => rfl, .inl rfl, ⟨[], (List.append_nil _).symm⟩,
      fun h => h.elim .inl (.inr ∘ .inl), blockSame h0, .inr rfl,
      .none (fun h' => absurd (h.symm.trans h') (by simp)) h1 rfl (.comment hco (.inr (.inr hcm)))⟩
    intro h'
    exact absurd (hl.symm.trans h') (by simp)
  · intro h0 h _ hl _ hlab hnd hdl hin hdir _
    have hwhy : Dropped p := by
      refine .directive hdir ?_ hin ?_ ?_
      · by_cases hh : p.handled = true
        · exact .inl hh
        · right
          unfold TParser.dirLine at hdl
          rw [if_neg hh] at hdl
          rw [← lab_text]
          exact hdl
      · rcases (labFrame p).label with h' | h'
        · exact absurd (h'.1.symm.trans hlab) (by simp)
        · exact h'.2.1
      · have := (labFrame p).data
        rw [hnd] at this
        cases hh : p.handled
        · right; simpa [hh] using this.symm
        · exact .inl rfl
    obtain ⟨us, sd, e⟩ := extractDirective_frame p.lab.1 p.newLine.id p.newLine.text
    simp only [e]
    obtain ⟨hfr, -, hcuda, hlab', hdata, hun⟩ := labFrame p
    rcases hlab' with h' | hlab'
    · exact absurd (h'.1.symm.trans hlab) (by simp)
    generalize p.lab.1 = q at *
    obtain ⟨ld, sd2, ls, files, ub, csr, pl, los, csf, cs, nd', nc, pp, rfl, a1, a2, a3, a4⟩ := hfr
    refine ⟨rfl, ⟨a4 hb.own, hb.fname, ?_⟩, rfl, rfl, fun _ => rfl, .inl rfl, ⟨_, rfl⟩,
      ?_, blockSame h0, .inr rfl, .none (fun h' => absurd (h.symm.trans h') (by simp)) a1 hlab'.2.2.2.2.2.1 hwhy⟩
    · intro h'
      exact absurd (hl.symm.trans h') (by simp)
    · intro h'
      rcases hcuda h' with h | h | ⟨h, -⟩
      · exact .inl h
      · exact .inr (.inl h)
      · exact absurd (hlab.symm.trans h) (by simp)
  · intro h0 h1 h2 h3 h4 q ln hc
    rcases hc with ⟨c1, c2, c3⟩ | ⟨c1, c2, c3, c4, c5, c6, c7, c8⟩ | ⟨c1, c2, c3, c4, c5, c6⟩ | ⟨c1, c2, c3, c4⟩
    · refine step_finish L p q ln p.lab.2.isDirective hb h0 h1 h3 h4 ?_ c2 ?_
      · rw [c3]
        split
        · exact ⟨_, _, _, rfl, fun h => absurd h (by simp)⟩
        · exact ⟨_, _, _, rfl, id⟩
      · intro _
        cases hl : p.lab.2.isLabel with
        | true => exact .inl rfl
        | false =>
          rw [(labFrame p).def_ hl] at c1
          exact .inr (.inr (.inr (.inl c1)))
    · refine step_finish L p q ln p.dirLine.isDirective hb h0 h1 h3 h4 ?_ (c4.trans (dirLine_eq p)) ?_
      · obtain ⟨us, sd, e⟩ := extractDirective_frame p.lab.1 p.newLine.id p.newLine.text
        rw [c8, e]
        exact ⟨us, sd, _, rfl, id⟩
      · intro h; exact absurd (c7.symm.trans h) (by simp)
    · refine step_finish L p q ln p.dirLine.isDirective hb h0 h1 h3 h4 ?_ (c4.trans (dirLine_eq p)) ?_
      · rw [c6]; exact ⟨_, _, _, rfl, id⟩
      · intro h
        rcases c5 with c5 | c5
        · have := handled_dir p c5
          exact .inr (.inr (.inr (.inr ⟨this.1, this.2, h2 h⟩)))
        · exact .inr (.inr (.inl c5))
    · refine step_finish L p q ln p.lab.2.isDirective hb h0 h1 h3 h4 ?_ c3 ?_
      · rw [c4]; exact ⟨_, _, _, rfl, id⟩
      · intro _
        rcases c2 with c2 | c2
        · exact .inl c2
        · exact .inr (.inl c2)

end AsmParser
