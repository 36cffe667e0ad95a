/-
Lemmas for C97, continued: the parser works the same on lines in which the same is recognized.
-/
import Verif.Proofs.RespMore
import Verif.Proofs.Mute

namespace AsmParser

attribute [local irreducible] Re.search Re.fullMatch

/-! ### What is recognized in a line -/

/-- The same is recognized in two lines. -/
structure Recog (L : Locale) (u v : Str) : Prop where
  ends : endBlock u = endBlock v
  brace : u.contains c! '}' = v.contains c! '}'
  file : getFileDef u = getFileDef v
  ref : getSourceRef u = getSourceRef v
  stabs : getSourceInfoFromStabs u = getSourceInfoFromStabs v
  dbg : get6502DbgInfo u = get6502DbgInfo v
  d2line : getD2LineInfo u = getD2LineInfo v
  d2file : getD2FileInfo u = getD2FileInfo v
  sect : getSectionNameDef u = getSectionNameDef v
  label : getLabelFromLine u = getLabelFromLine v
  data : isDataDefn u = isDataDefn v
  dir : isDirective u = isDirective v
  inst : isInstOpcode u = isInstOpcode v
  paren : isCudaEndDef u = isCudaEndDef v
  op : ∀ c, hasOpcode u c = hasOpcode v c
  weak : getWeakDefinedLabel u = getWeakDefinedLabel v
  glob : getGlobalDefinedLabel u = getGlobalDefinedLabel v
  used : (getUsedLabelsInLine L u).map (·.name) = (getUsedLabelsInLine L v).map (·.name)
  proc : startProcBlock u = startProcBlock v

theorem SameWords.recog {u v : Str} (L : Locale) (h : SameWords u v) (hp : ¬ IndentedProc u) : Recog L u v :=
  have r := h.resp
  ⟨r.endBlock_eq, r.brace_eq, h.names.1, r.sourceRef_eq, r.stabs_eq, h.names.2.1, r.d2line_eq, h.names.2.2, r.section_eq, r.labelFromLine hp, r.data_eq,
    r.directive_eq, r.inst_eq, r.cudaEnd_eq, r.hasOpcode_eq, r.weak_eq, r.global_eq, r.usedLabels L, r.startProc_eq⟩

theorem oneBlank_idem (u : Str) : oneBlank (oneBlank u) = oneBlank u := by
  have : ∀ (n : Nat) (u : Str), u.length ≤ n → oneBlank (oneBlank u) = oneBlank u := by
    intro n
    induction n with
    | zero => intro u hu; rw [List.length_eq_zero_iff.1 (Nat.le_zero.1 hu)]; rfl
    | succ n ih =>
      intro u hu
      rcases run_cases u with rfl | ⟨c, w, hc, rfl⟩ | ⟨bs, w, h1, h2, h3, rfl⟩
      · rfl
      · rw [oneBlank_char hc, oneBlank_char hc, ih w (by simpa using hu)]
      · rw [oneBlank_gap h1 h2 h3]
        have hw : ∀ d ∈ (oneBlank w).head?, ¬ Blank d := by
          intro d hd
          cases w with
          | nil => cases hd
          | cons x w => rw [oneBlank_char (h3 x rfl)] at hd; cases hd; exact h3 _ rfl
        have hlen : w.length ≤ n := by
          have : 1 ≤ bs.length := List.length_pos_iff.2 h1
          rw [List.length_append] at hu
          omega
        have hh := oneBlank_gap (bs := [32]) (by simp) (fun c hc => by rw [List.mem_singleton.1 hc]; exact .inl rfl) hw
        rw [ih w hlen] at hh
        exact hh
  exact this _ u (Nat.le_refl _)

theorem oneBlank_isEmpty (u : Str) : (oneBlank u).isEmpty = u.isEmpty := by
  rw [Bool.eq_iff_iff, List.isEmpty_iff, List.isEmpty_iff]
  exact (resp_iff.2 (oneBlank_idem u)).nil_iff

/-! ### Leaving out how many blanks there are -/

/-- With single blanks, and without the columns of the references. -/
def TLine.worded (l : TLine) : TLine := { l with text := oneBlank l.text, labels := l.labels.map fun r => ({ name := r.name } : AsmLabel) }

/-- The lines so; without the filter `whitespace` and the lines that are left out. -/
def TParser.worded (p : TParser) : TParser :=
  { filter := { p.filter with whitespace := false }, st := { p.st with filteredLines := [] }, files := p.files
    lines := p.lines.map TLine.worded, labelsDefined := p.labelsDefined
    usage := p.usage, reproducible := p.reproducible, totalLines := p.totalLines, nextId := p.nextId }

@[simp] theorem TLine.worded_worded (l : TLine) : l.worded.worded = l.worded := by
  unfold TLine.worded
  simp [oneBlank_idem]

theorem worded_comp : TLine.worded ∘ TLine.worded = TLine.worded := by
  funext l; simp

theorem worded_lines (ls : List TLine) : (ls.map TLine.worded).map TLine.worded = ls.map TLine.worded := by
  rw [List.map_map, worded_comp]

theorem TParser.worded_worded (p : TParser) : p.worded.worded = p.worded := by
  unfold TParser.worded
  simp [worded_comp]

theorem TParser.worded_ext {p q : TParser} (h1 : { p.filter with whitespace := false } = { q.filter with whitespace := false })
    (h2 : { p.st with filteredLines := [] } = { q.st with filteredLines := [] }) (h3 : p.files = q.files)
    (h4 : p.lines.map TLine.worded = q.lines.map TLine.worded) (h5 : p.labelsDefined = q.labelsDefined)
    (h6 : p.usage = q.usage) (h7 : p.reproducible = q.reproducible) (h8 : p.totalLines = q.totalLines) (h9 : p.nextId = q.nextId) : p.worded = q.worded := by
  unfold TParser.worded
  rw [h1, h2, h3, h4, h5, h6, h7, h8, h9]

theorem amendRev_worded (s : TSource) : ∀ {a b : List TLine}, a.map TLine.worded = b.map TLine.worded →
    (amendRev s a).map TLine.worded = (amendRev s b).map TLine.worded := by
  have key : ∀ a : List TLine, (amendRev s a).map TLine.worded = amendRev s (a.map TLine.worded) := by
    intro a
    induction a with
    | nil => rfl
    | cons x a ih =>
      rw [amendRev, List.map_cons, amendRev]
      have e1 : x.worded.isLabel = x.isLabel := rfl
      have e2 : x.worded.isInternalLabel = x.isInternalLabel := rfl
      rw [e1, e2]
      split
      · split
        · rw [List.map_cons, ih]; rfl
        · rw [List.map_cons]; rfl
      · rw [List.map_cons]
  intro a b h
  rw [key, key, h]

theorem amend_worded {p q : TParser} (h : p.worded = q.worded) (s : TSource) :
    (p.amendPreviousLinesWith s).worded = (q.amendPreviousLinesWith s).worded := by
  have hl : p.lines.map TLine.worded = q.lines.map TLine.worded := (congrArg TParser.lines h :)
  have e : ∀ (p : TParser) s, (p.amendPreviousLinesWith s).worded = { p.worded with lines := ((amendRev s p.lines.reverse).map TLine.worded).reverse } := by
    intro p s
    simp [TParser.amendPreviousLinesWith, TParser.worded]
  have hh := amendRev_worded s (show p.lines.reverse.map TLine.worded = q.lines.reverse.map TLine.worded by rw [List.map_reverse, List.map_reverse, hl])
  rw [e, e, h, hh]

theorem procStart_worded (a : List TLine) : (procStart a).map TLine.worded = procStart (a.map TLine.worded) := by
  cases a with
  | nil => rfl
  | cons x a =>
    unfold procStart
    have e : x.inProc.worded = x.worded.inProc := by
      unfold TLine.inProc
      have : (x.worded.isLabel && x.worded.isInternalLabel) = (x.isLabel && x.isInternalLabel) := rfl
      rw [this]
      split <;> rfl
    simp [e]

theorem mark_worded {p q : TParser} (h : p.worded = q.worded) :
    p.markPreviousInternalLabelAsInsideProc.worded = q.markPreviousInternalLabelAsInsideProc.worded := by
  have hl : p.lines.reverse.map TLine.worded = q.lines.reverse.map TLine.worded := by
    rw [List.map_reverse, List.map_reverse, show p.lines.map TLine.worded = q.lines.map TLine.worded from (congrArg TParser.lines h :)]
  have e : ∀ p : TParser, p.markPreviousInternalLabelAsInsideProc.worded = { p.worded with lines := (procStart p.lines.reverse).map TLine.worded } := by
    intro p
    unfold TParser.markPreviousInternalLabelAsInsideProc procStart
    cases p.lines.reverse <;> rfl
  rw [e, e, h, procStart_worded, procStart_worded, hl]

/-! ### Reading a line -/

/-- Two lines that differ in the number of blanks. -/
structure LinePair (L : Locale) (a b : TLine) : Prop where
  worded : a.worded = b.worded
  recog : Recog L a.text b.text

theorem sources_worded {L : Locale} (p : TParser) {a b : TLine} (h : LinePair L a b) :
    (p.handleSourceDirectives a).1.worded = (p.worded.handleSourceDirectives b).1.worded ∧
    (p.handleSourceDirectives a).2 = (p.worded.handleSourceDirectives b).2 := by
  unfold TParser.handleSourceDirectives
  have e2 : p.worded.st.inNvccCode = p.st.inNvccCode := rfl
  have e3 : a.id = b.id := (congrArg TLine.id h.worded :)
  have r := h.recog
  rw [e2, r.ends, r.brace, e3]
  split
  · refine ⟨?_, rfl⟩
    show TParser.worded _ = TParser.worded _
    unfold TParser.worded
    simp [worded_comp]
  · unfold TParser.handleFiledef
    rw [r.file]
    cases getFileDef b.text with
    | some d => exact ⟨by simp [TParser.worded, worded_comp], rfl⟩
    | none =>
      simp only [Option.map_none]
      unfold TParser.handleSource
      rw [r.ref]
      by_cases h : (getSourceRef b.text).1 ≠ 0
      · simp only [if_pos h]
        refine ⟨?_, by trivial⟩
        refine amend_worded ?_ _
        simp [TParser.worded, worded_comp]
      · simp only [if_neg h]
        unfold TParser.handleStabs
        rw [r.stabs]
        cases getSourceInfoFromStabs b.text with
        | some d =>
          simp only [Option.map_some]
          refine ⟨?_, by trivial⟩
          repeat' split
          all_goals simp [TParser.worded, worded_comp]
        | none =>
          simp only [Option.map_none]
          unfold TParser.handle6502
          rw [r.dbg]
          cases get6502DbgInfo b.text with
          | some d =>
            simp only [Option.map_some]
            refine ⟨?_, by trivial⟩
            split
            all_goals simp [TParser.worded, worded_comp]
          | none =>
            simp only [Option.map_none]
            unfold TParser.handleD2
            rw [r.d2line]
            cases getD2LineInfo b.text with
            | some d =>
              simp only
              refine ⟨?_, by trivial⟩
              refine amend_worded ?_ _
              simp [TParser.worded, worded_comp]
            | none =>
              simp only
              rw [r.d2file]
              cases getD2FileInfo b.text with
              | some d => exact ⟨by simp [TParser.worded, worded_comp], rfl⟩
              | none => exact ⟨by simp [TParser.worded_worded], rfl⟩

theorem section_worded (p : TParser) {L : Locale} {a b : TLine} (h : LinePair L a b) :
    (p.handleSection a.id a.text).worded = (p.worded.handleSection b.id b.text).worded := by
  unfold TParser.handleSection
  rw [h.recog.sect, show a.id = b.id from (congrArg TLine.id h.worded :)]
  split <;> simp [TParser.worded, worded_comp]

theorem aliasing_worded (p : TParser) {a b : TLine} (h : a.worded = b.worded) : (p.handleLabelAliasing a).worded = (p.worded.handleLabelAliasing b).worded := by
  unfold TParser.handleLabelAliasing
  have e0 : a.id = b.id := (congrArg TLine.id h :)
  have e1 : a.isLabel = b.isLabel := (congrArg TLine.isLabel h :)
  have e2 : a.isAssignment = b.isAssignment := (congrArg TLine.isAssignment h :)
  have e3 : a.hasOpcode = b.hasOpcode := (congrArg TLine.hasOpcode h :)
  have e4 : a.isData = b.isData := (congrArg TLine.isData h :)
  have e5 : a.label = b.label := (congrArg TLine.label h :)
  have e6 : p.worded.st.previousLabelOnSameAddress = p.st.previousLabelOnSameAddress := rfl
  simp only [e0, e1, e2, e3, e4, e5, e6]
  cases b.isLabel <;> cases b.isAssignment <;> cases b.hasOpcode <;> cases b.isData <;> cases p.st.previousLabelOnSameAddress.s.isEmpty <;>
    simp [TParser.worded, worded_comp]

theorem clear_worded {p q : TParser} (h : p.worded = q.worded) : p.clear.worded = q.clear.worded := by
  have e : ∀ p : TParser, p.clear.worded = p.worded.clear := fun _ => rfl
  rw [e, e, h]

/-- Line with the result of looking for a label. -/
def TLine.defines (a : TLine) (d : Option (Str × Bool × Bool)) : TLine :=
  match d with
  | some (l, assign, _) => { a with label := l, isLabel := true, isInternalLabel := AsmParser.isInternalLabel l, isAssignment := assign }
  | none => { a with isLabel := false, isInternalLabel := false }

theorem definition_worded (p : TParser) {L : Locale} {a b : TLine} (h : LinePair L a b) :
    (p.handleLabelDefinition a).1.worded = (p.worded.handleLabelDefinition b).1.worded ∧
    LinePair L (p.handleLabelDefinition a).2 (p.worded.handleLabelDefinition b).2 := by
  have e0 : a.id = b.id := (congrArg TLine.id h.worded :)
  have hw := h.worded
  have hl : (p.worded.lines.length) = p.lines.length := List.length_map _
  have hline : ∀ (p : TParser) (a : TLine), (p.handleLabelDefinition a).2 = a.defines (getLabelFromLine a.text) := by
    intro p a
    unfold TParser.handleLabelDefinition TLine.defines
    cases getLabelFromLine a.text <;> rfl
  refine ⟨?_, ?_⟩
  · unfold TParser.handleLabelDefinition
    rw [h.recog.label, e0, hl]
    cases getLabelFromLine b.text with
    | none => simp [TParser.worded_worded]
    | some d =>
      obtain ⟨l, x, c⟩ := d
      simp only
      cases isInternalLabel l <;> simp [TParser.worded, worded_comp]
  · rw [hline, hline, h.recog.label]
    have ht : ∀ (a : TLine) d, (a.defines d).text = a.text := by
      intro a d; unfold TLine.defines; cases d <;> rfl
    refine ⟨?_, by rw [ht, ht]; exact h.recog⟩
    have hd : ∀ (a : TLine) d, (a.defines d).worded = a.worded.defines d := by
      intro a d; unfold TLine.defines; cases d <;> rfl
    rw [hd, hd, hw]

theorem directive_worded (p : TParser) {L : Locale} {a b : TLine} (h : LinePair L a b) :
    (p.extractUsedLabelsFromDirective a.id a.text).worded = (p.worded.extractUsedLabelsFromDirective b.id b.text).worded := by
  unfold TParser.extractUsedLabelsFromDirective
  rw [h.recog.weak, h.recog.glob, show a.id = b.id from (congrArg TLine.id h.worded :)]
  repeat' split
  all_goals simp [TParser.worded, worded_comp]

theorem names_of {x y : List AsmLabel} (h : x.map (·.name) = y.map (·.name)) :
    (x.map fun r => ({ name := r.name } : AsmLabel)) = (y.map fun r => ({ name := r.name } : AsmLabel)) := by
  have e : ∀ x : List AsmLabel, (x.map fun r => ({ name := r.name } : AsmLabel)) = (x.map (·.name)).map fun n => ({ name := n } : AsmLabel) := by
    intro x; rw [List.map_map]; rfl
  rw [e, e, h]

theorem foldl_names {β : Type} (f : β → Str → β) (x : List AsmLabel) (m : β) : x.foldl (fun m r => f m r.name) m = (x.map (·.name)).foldl f m := by
  rw [List.foldl_map]

theorem opcode_worded (L : Locale) (p : TParser) {a b : TLine} (h : LinePair L a b) :
    (p.extractUsedLabelsFromOpcodeLine L a).1.worded = (p.worded.extractUsedLabelsFromOpcodeLine L b).1.worded ∧
    LinePair L (p.extractUsedLabelsFromOpcodeLine L a).2 (p.worded.extractUsedLabelsFromOpcodeLine L b).2 := by
  refine ⟨?_, ?_, h.recog⟩
  · refine TParser.worded_ext rfl rfl rfl (worded_lines _).symm rfl ?_ rfl rfl rfl
    unfold TParser.extractUsedLabelsFromOpcodeLine
    simp only
    have e := foldl_names (fun m r => if r ≠ p.st.previousParentLabel.s then addRef r p.st.previousParentLabel.s m else m)
    rw [show p.worded.usage = p.usage from rfl, show p.worded.st.previousParentLabel = p.st.previousParentLabel from rfl, e, e, h.recog.used]
  · have hh := names_of h.recog.used
    have e : ∀ (p : TParser) (a : TLine), (p.extractUsedLabelsFromOpcodeLine L a).2.worded =
      { a.worded with labels := (getUsedLabelsInLine L a.text).map fun r => ({ name := r.name } : AsmLabel) } := fun _ _ => rfl
    rw [e, e, h.worded, hh]

theorem data_worded (L : Locale) (p : TParser) {a b : TLine} (h : LinePair L a b) :
    (p.extractUsedLabelsFromDataLine L a).1.worded = (p.worded.extractUsedLabelsFromDataLine L b).1.worded ∧
    LinePair L (p.extractUsedLabelsFromDataLine L a).2 (p.worded.extractUsedLabelsFromDataLine L b).2 := by
  refine ⟨?_, ?_, h.recog⟩
  · refine TParser.worded_ext rfl rfl rfl (worded_lines _).symm rfl ?_ rfl rfl rfl
    unfold TParser.extractUsedLabelsFromDataLine
    simp only
    have e := foldl_names (fun m r => if p.st.currentSourceRef.insideProc then addRef r p.st.previousParentLabel.s (addRef r p.st.previousLabel.s m)
      else addRef r p.st.previousLabel.s m)
    rw [show p.worded.usage = p.usage from rfl, show p.worded.st.previousParentLabel = p.st.previousParentLabel from rfl,
      show p.worded.st.previousLabel = p.st.previousLabel from rfl, show p.worded.st.currentSourceRef = p.st.currentSourceRef from rfl, e, e, h.recog.used]
  · have hh := names_of h.recog.used
    have e : ∀ (p : TParser) (a : TLine), (p.extractUsedLabelsFromDataLine L a).2.worded =
      { a.worded with labels := (getUsedLabelsInLine L a.text).map fun r => ({ name := r.name } : AsmLabel) } := fun _ _ => rfl
    rw [e, e, h.worded, hh]

theorem append_worded {p q : TParser} (h : p.worded = q.worded) {a b : TLine} (hab : a.worded = b.worded) (x y : List (Option Nat)) :
    TParser.worded { p with lines := p.lines ++ [a], stored := x } = TParser.worded { q with lines := q.lines ++ [b], stored := y } := by
  have e : ∀ (p : TParser) (a : TLine) x, TParser.worded { p with lines := p.lines ++ [a], stored := x } =
      { p.worded with lines := p.worded.lines ++ [a.worded] } := by
    intro p a x
    simp [TParser.worded]
  rw [e, e, h, hab]

/-- A line with its place. -/
def TLine.placed (a : TLine) (st : TState) : TLine :=
  { a with
    closestParentLabel := if a.isAssignment || a.label == st.previousParentLabel.s then [] else st.previousParentLabel.s
    source := st.currentSourceRef
    sect := st.currentSection }

theorem push_worded {p q : TParser} (h : p.worded = q.worded) {a b : TLine} (hab : a.worded = b.worded) : (p.push a).worded = (q.push b).worded := by
  have k : (a.placed p.st).worded = (b.placed q.st).worded := by
    have e : ∀ (a : TLine) (p : TParser), (a.placed p.st).worded = a.worded.placed p.worded.st := fun _ _ => rfl
    rw [e, e, h, hab]
  have eq : ∀ (p : TParser) (a : TLine), p.push a = { p.handleLabelAliasing (a.placed p.st) with lines := (p.handleLabelAliasing (a.placed p.st)).lines ++ [a.placed p.st], stored := (p.handleLabelAliasing (a.placed p.st)).st.previousParentLabel.own :: (p.handleLabelAliasing (a.placed p.st)).stored }.clear := fun _ _ => rfl
  rw [eq, eq]
  refine clear_worded (append_worded ?_ k _ _)
  rw [aliasing_worded p k, h, aliasing_worded q rfl]

theorem ops_worded (L : Locale) {p q : TParser} (h : p.worded = q.worded) {a b : TLine} (hab : LinePair L a b) :
    (TParser.ops L (p, a)).1.worded = (TParser.ops L (q, b)).1.worded ∧ LinePair L (TParser.ops L (p, a)).2 (TParser.ops L (q, b)).2 := by
  unfold TParser.ops
  have f1 : a.isLabel = b.isLabel := (congrArg TLine.isLabel hab.worded :)
  have f2 : a.hasOpcode = b.hasOpcode := (congrArg TLine.hasOpcode hab.worded :)
  simp only [f1, f2]
  split
  · have k1 := opcode_worded L p hab
    have k2 := (opcode_worded L q (a := b) (b := b) ⟨rfl, ⟨rfl, rfl, rfl, rfl, rfl, rfl, rfl, rfl, rfl, rfl, rfl, rfl, rfl, rfl, fun _ => rfl, rfl, rfl, rfl, rfl⟩⟩)
    refine ⟨k1.1.trans (by rw [h]; exact k2.1.symm), ?_⟩
    exact k1.2
  · exact ⟨h, hab⟩

theorem datas_worded (L : Locale) {p q : TParser} (h : p.worded = q.worded) {a b : TLine} (hab : LinePair L a b) :
    (TParser.datas L (p, a)).1.worded = (TParser.datas L (q, b)).1.worded ∧ LinePair L (TParser.datas L (p, a)).2 (TParser.datas L (q, b)).2 := by
  unfold TParser.datas
  have f1 : a.isLabel = b.isLabel := (congrArg TLine.isLabel hab.worded :)
  have f2 : a.isData = b.isData := (congrArg TLine.isData hab.worded :)
  simp only [f1, f2]
  split
  · have k1 := data_worded L p hab
    have k2 := (data_worded L q (a := b) (b := b) ⟨rfl, ⟨rfl, rfl, rfl, rfl, rfl, rfl, rfl, rfl, rfl, rfl, rfl, rfl, rfl, rfl, fun _ => rfl, rfl, rfl, rfl, rfl⟩⟩)
    refine ⟨k1.1.trans (by rw [h]; exact k2.1.symm), ?_⟩
    exact k1.2
  · exact ⟨h, hab⟩

theorem LinePair.refl (L : Locale) (b : TLine) : LinePair L b b :=
  ⟨rfl, ⟨rfl, rfl, rfl, rfl, rfl, rfl, rfl, rfl, rfl, rfl, rfl, rfl, rfl, rfl, fun _ => rfl, rfl, rfl, rfl, rfl⟩⟩

theorem finish_worded (L : Locale) {p q : TParser} (h : p.worded = q.worded) {a b : TLine} (hab : LinePair L a b) : (p.eolFinish L a).worded = (q.eolFinish L b).worded := by
  have e4 : p.st.inCustomAssembly = q.st.inCustomAssembly := (congrArg (fun p => p.st.inCustomAssembly) h :)
  have e5 : p.st.inNvccCode = q.st.inNvccCode := (congrArg (fun p => p.st.inNvccCode) h :)
  rw [finish_push, finish_push]
  have hp : LinePair L (p.prep a) (q.prep b) := by
    refine ⟨?_, hab.recog⟩
    have e : ∀ (p : TParser) (a : TLine), (p.prep a).worded = { a.worded with isInlineAsm := decide (p.st.inCustomAssembly > 0), hasOpcode := hasOpcode a.text p.st.inNvccCode, labels := [] } := fun _ _ => rfl
    rw [e, e, e4, e5, hab.recog.op, hab.worded]
  obtain ⟨k1, k2⟩ := ops_worded L h hp
  obtain ⟨j1, j2⟩ := datas_worded L k1 k2
  exact push_worded j1 j2.worded

theorem dirStep_worded (L : Locale) {p q : TParser} (h : p.worded = q.worded) {a b : TLine} (hab : LinePair L a b) :
    (p.dirStep L a).worded = (q.dirStep L b).worded := by
  have f2 : a.isDirective = b.isDirective := (congrArg TLine.isDirective hab.worded :)
  unfold TParser.dirStep
  rw [hab.recog.inst, f2]
  split
  · have hd : (p.extractUsedLabelsFromDirective a.id a.text).worded = (q.extractUsedLabelsFromDirective b.id b.text).worded := by
      rw [directive_worded p hab, directive_worded q (LinePair.refl L b), h]
    have hf : (p.extractUsedLabelsFromDirective a.id a.text).filter.directives = (q.extractUsedLabelsFromDirective b.id b.text).filter.directives :=
      (congrArg (fun p => p.filter.directives) hd :)
    generalize p.extractUsedLabelsFromDirective a.id a.text = p1 at *
    generalize q.extractUsedLabelsFromDirective b.id b.text = q1 at *
    simp only [hf]
    split
    · exact clear_worded (Eq.trans (Eq.trans rfl hd) rfl)
    · exact finish_worded L hd hab
  · exact finish_worded L h hab

theorem eolDirective_worded (L : Locale) {p q : TParser} (h : p.worded = q.worded) {a b : TLine} (hab : LinePair L a b) (hnd : Bool) :
    (p.eolDirective L a hnd).worded = (q.eolDirective L b hnd).worded := by
  have e2 : a.isLabel = b.isLabel := (congrArg TLine.isLabel hab.worded :)
  have e3 : a.isData = b.isData := (congrArg TLine.isData hab.worded :)
  have e4 : p.st.inNvccDef = q.st.inNvccDef := (congrArg (fun p => p.st.inNvccDef) h :)
  have eq : ∀ (p : TParser) (ln : TLine), p.eolDirective L ln hnd = if p.st.inNvccDef then
    (if isCudaEndDef ln.text then { p with st := { p.st with inNvccDef := false } } else p).eolFinish L ln
  else if !ln.isLabel && !ln.isData then p.dirStep L (if hnd then ln else { ln with isDirective := isDirective ln.text })
  else p.eolFinish L ln := fun _ _ => rfl
  rw [eq, eq]
  have c : (!a.isLabel && !a.isData) = (!b.isLabel && !b.isData) := by rw [e2, e3]
  simp only [hab.recog.paren, c, e4]
  split
  · refine finish_worded L ?_ hab
    split
    · have e : ∀ p : TParser, TParser.worded { p with st := { p.st with inNvccDef := false } } = { p.worded with st := { p.worded.st with inNvccDef := false } } := fun _ => rfl
      rw [e, e, h]
    · exact h
  split
  · cases hnd
    · have hp : LinePair L { a with isDirective := isDirective a.text } { b with isDirective := isDirective b.text } := by
        refine ⟨?_, hab.recog⟩
        have e : ∀ a : TLine, TLine.worded { a with isDirective := isDirective a.text } = { a.worded with isDirective := isDirective a.text } := fun _ => rfl
        rw [e, e, hab.worded, hab.recog.dir]
      exact dirStep_worded L h hp
    · exact dirStep_worded L h hab
  · exact finish_worded L h hab

theorem eolLabel_worded (L : Locale) {p q : TParser} (h : p.worded = q.worded) {a b : TLine} (hab : LinePair L a b) (hnd : Bool) :
    (p.eolLabel L a hnd).worded = (q.eolLabel L b hnd).worded := by
  unfold TParser.eolLabel
  split
  · refine eolDirective_worded (a := { a with isData := false, isDirective := true, isLabel := false, isInternalLabel := false })
      (b := { b with isData := false, isDirective := true, isLabel := false, isInternalLabel := false }) L h ⟨?_, hab.recog⟩ hnd
    have e : ∀ a : TLine, TLine.worded { a with isData := false, isDirective := true, isLabel := false, isInternalLabel := false } =
      { a.worded with isData := false, isDirective := true, isLabel := false, isInternalLabel := false } := fun _ => rfl
    rw [e, e, hab.worded]
  · simp only
    have d1 := definition_worded p hab
    have d2 := definition_worded q (LinePair.refl L b)
    have hl : (p.worded.handleLabelDefinition b).2 = (q.handleLabelDefinition b).2 := by
      unfold TParser.handleLabelDefinition
      cases getLabelFromLine b.text with
      | none => rfl
      | some d => rfl
    have hp := d1.2
    rw [hl] at hp
    have h1 : (p.handleLabelDefinition a).1.worded = (q.handleLabelDefinition b).1.worded := d1.1.trans (by rw [h]; exact d2.1.symm)
    refine eolDirective_worded (a := { (p.handleLabelDefinition a).2 with isData := isDataDefn a.text, isDirective := false })
      (b := { (q.handleLabelDefinition b).2 with isData := isDataDefn b.text, isDirective := false }) L h1 ⟨?_, hp.recog⟩ hnd
    have e : ∀ (a : TLine) x, TLine.worded { a with isData := x, isDirective := false } = { a.worded with isData := x, isDirective := false } := fun _ _ => rfl
    rw [e, e, hp.worded, hab.recog.data]

theorem eolComment_worded (L : Locale) {p q : TParser} (h : p.worded = q.worded) {a b : TLine} (hab : LinePair L a b) (raw : Str) (hnd : Bool) :
    (p.eolComment L a raw hnd).worded = (q.eolComment L b raw hnd).worded := by
  have e4 : p.st.inNvccCode = q.st.inNvccCode := (congrArg (fun p => p.st.inNvccCode) h :)
  have e5 : p.filter.commentOnly = q.filter.commentOnly := (congrArg (fun p => p.filter.commentOnly) h :)
  unfold TParser.eolComment
  rw [e4, e5]
  split
  · exact clear_worded h
  · exact eolLabel_worded L h hab hnd

theorem maybeRemove_worded {p q : TParser} (h : p.worded = q.worded) : p.maybeRemovePrevious.worded = q.maybeRemovePrevious.worded := by
  have e : ∀ p : TParser, p.maybeRemovePrevious.worded = p.worded.maybeRemovePrevious.worded := by
    intro p
    unfold TParser.maybeRemovePrevious
    have e1 : p.worded.st.mayRemovePreviousLabel = p.st.mayRemovePreviousLabel := rfl
    have e2 : p.worded.lines.getLast? = p.lines.getLast?.map TLine.worded := List.getLast?_map
    rw [e1, e2]
    split
    · cases p.lines.getLast? with
      | none => simp [TParser.worded_worded]
      | some l =>
        simp only [Option.map_some]
        have e3 : l.worded.text.isEmpty = l.text.isEmpty := oneBlank_isEmpty l.text
        have e4 : l.worded.isLabel = l.isLabel := rfl
        rw [e3, e4]
        repeat' split
        all_goals simp [TParser.worded, worded_comp, ← List.map_dropLast]
    · simp [TParser.worded_worded]
  rw [e, e q, h]

theorem eolLibrary_worded (L : Locale) {p q : TParser} (h : p.worded = q.worded) {a b : TLine} (hab : LinePair L a b) (raw : Str) (hnd : Bool) :
    (p.eolLibrary L a raw hnd).worded = (q.eolLibrary L b raw hnd).worded := by
  have e5 : p.filter.libraryFunctions = q.filter.libraryFunctions := (congrArg (fun p => p.filter.libraryFunctions) h :)
  have e6 : p.st.lastOwnSourceLine = q.st.lastOwnSourceLine := (congrArg (fun p => p.st.lastOwnSourceLine) h :)
  have e7 : p.st.currentFilename = q.st.currentFilename := (congrArg (fun p => p.st.currentFilename) h :)
  unfold TParser.eolLibrary
  rw [e5, e6, e7]
  split
  · have hm := maybeRemove_worded h
    have e8 : p.maybeRemovePrevious.st.keepInlineCode = q.maybeRemovePrevious.st.keepInlineCode := (congrArg (fun p => p.st.keepInlineCode) hm :)
    simp only [e8]
    split
    · exact clear_worded hm
    · exact eolComment_worded L hm hab raw hnd
  · refine eolComment_worded L ?_ hab raw hnd
    have e : ∀ p : TParser, TParser.worded { p with st := { p.st with mayRemovePreviousLabel := true } } = { p.worded with st := { p.worded.st with mayRemovePreviousLabel := true } } := fun _ => rfl
    rw [e, e, h]

theorem eolSource_worded (L : Locale) {p q : TParser} (h : p.worded = q.worded) {a b : TLine} (hab : LinePair L a b) (raw : Str) :
    (p.eolSource L a raw).worded = (q.eolSource L b raw).worded := by
  have s1 := sources_worded p hab
  have s2 := sources_worded q (LinePair.refl L b)
  have e1 : (p.handleSourceDirectives a).1.worded = (q.handleSourceDirectives b).1.worded := by rw [s1.1, h, s2.1]
  have e2 : (q.handleSourceDirectives b).2 = (p.handleSourceDirectives a).2 := by rw [s1.2, h, s2.2]
  unfold TParser.eolSource
  simp only [e2]
  refine eolLibrary_worded L ?_ hab raw _
  split
  · rw [section_worded _ hab, section_worded (q.handleSourceDirectives b).1 (LinePair.refl L b), e1]
  · exact e1

theorem body2_worded (L : Locale) {p q : TParser} (h : p.worded = q.worded) {t t' : Str}
    (ht : oneBlank t = oneBlank t') (hr : Recog L t t') (raw : Str) (i : Nat) : (p.body2 L t raw i).worded = (q.body2 L t' raw i).worded := by
  have e4 : p.st.currentSourceRef.line = q.st.currentSourceRef.line := (congrArg (fun p => p.st.currentSourceRef.line) h :)
  have hab : LinePair L { id := i, text := t } { id := i, text := t' } := by
    refine ⟨?_, hr⟩
    unfold TLine.worded
    simp only [ht]
  unfold TParser.body2
  rw [e4, hr.proc]
  split
  · have hm : p.markPreviousInternalLabelAsInsideProc.worded = q.markPreviousInternalLabelAsInsideProc.worded := mark_worded h
    have g1 : p.markPreviousInternalLabelAsInsideProc.filter.directives = q.markPreviousInternalLabelAsInsideProc.filter.directives := (congrArg (fun p => p.filter.directives) hm :)
    rw [g1]
    split
    · exact clear_worded hm
    · exact eolSource_worded L hm hab _
  · exact eolSource_worded L h hab _

/-- The text of a line with and without the filter `whitespace`. -/
def Steady (L : Locale) (f g : Filter) (raw : Str) : Prop :=
  ∀ n, oneBlank (lineText f n raw) = oneBlank (lineText g n raw) ∧ Recog L (lineText f n raw) (lineText g n raw)

theorem eolBody_worded (L : Locale) {p q : TParser} (h : p.worded = q.worded) (i : Nat)
    (hs : Steady L p.filter q.filter p.st.text) : (p.eolBody L i).worded = (q.eolBody L i).worded := by
  have e1 : p.st.text = q.st.text := (congrArg (fun p => p.st.text) h :)
  have e2 : p.st.inCustomAssembly = q.st.inCustomAssembly := (congrArg (fun p => p.st.inCustomAssembly) h :)
  have eq : ∀ (p : TParser) i, p.eolBody L i = (p.nest (nesting p.st.inCustomAssembly p.st.text)).body2 L
    (lineText p.filter (nesting p.st.inCustomAssembly p.st.text) p.st.text) p.st.text i := fun _ _ => rfl
  rw [e1] at hs
  rw [eq, eq, e1, e2]
  generalize nesting q.st.inCustomAssembly q.st.text = n
  refine body2_worded L (p := p.nest n) (q := q.nest n) ?_ (hs n).1 (hs n).2 _ i
  have e : ∀ (p : TParser) n, (p.nest n).worded = p.worded.nest n := fun _ _ => rfl
  rw [e, e, h]

theorem maybeAddBlank_worded {p q : TParser} (h : p.worded = q.worded) (i : Nat) : (p.maybeAddBlank i).worded = (q.maybeAddBlank i).worded := by
  have hl : p.lines.map TLine.worded = q.lines.map TLine.worded := (congrArg TParser.lines h :)
  have h1 : p.lines.getLast?.map TLine.worded = q.lines.getLast?.map TLine.worded := by
    rw [← List.getLast?_map, ← List.getLast?_map, hl]
  unfold TParser.maybeAddBlank
  cases hp : p.lines.getLast? with
  | none =>
    rw [hp] at h1
    cases hq : q.lines.getLast? with
    | none => exact h
    | some y => rw [hq] at h1; cases h1
  | some x =>
    rw [hp] at h1
    cases hq : q.lines.getLast? with
    | none => rw [hq] at h1; cases h1
    | some y =>
      rw [hq] at h1
      have ht : x.text.isEmpty = y.text.isEmpty := by
        simp only [Option.map_some, Option.some.injEq] at h1
        rw [← oneBlank_isEmpty x.text, ← oneBlank_isEmpty y.text, show oneBlank x.text = oneBlank y.text from (congrArg TLine.text h1 :)]
      simp only [ht]
      split
      · exact h
      · exact append_worded h (a := { id := i }) (b := { id := i }) rfl p.stored q.stored

theorem eol_worded (L : Locale) {p q : TParser} (h : p.worded = q.worded)
    (hs : isEmptyOrJustWhitespace p.st.text = false → Steady L p.filter q.filter p.st.text) : (p.eol L).worded = (q.eol L).worded := by
  have e1 : p.st.text = q.st.text := (congrArg (fun p => p.st.text) h :)
  have e2 : p.st.hasStartedCommentBlock = q.st.hasStartedCommentBlock := (congrArg (fun p => p.st.hasStartedCommentBlock) h :)
  have e3 : p.filter.commentOnly = q.filter.commentOnly := (congrArg (fun p => p.filter.commentOnly) h :)
  have e4 : p.nextId = q.nextId := (congrArg TParser.nextId h :)
  have hc : p.count.worded = q.count.worded := by
    have e : ∀ p : TParser, p.count.worded = p.worded.count := fun _ => rfl
    rw [e, e, h]
  have eq : ∀ p : TParser, p.eol L = p.count.eol2 L p.nextId := fun _ => rfl
  rw [eq, eq, ← e4]
  have t1 : p.count.st.text = p.st.text := rfl
  have t2 : q.count.st.text = p.st.text := e1.symm
  have t3 : q.count.filter.commentOnly = p.filter.commentOnly := e3.symm
  have t4 : q.count.st.hasStartedCommentBlock = p.st.hasStartedCommentBlock := e2.symm
  unfold TParser.eol2
  rw [t1, t2, t3, t4, show p.count.filter = p.filter from rfl, show p.count.st.hasStartedCommentBlock = p.st.hasStartedCommentBlock from rfl]
  split
  · refine clear_worded ?_
    have e : ∀ (p : TParser) b, (p.inComment b).worded = p.worded.inComment b := fun _ _ => rfl
    rw [e, e, hc]
  split
  · exact maybeAddBlank_worded hc _
  · rename_i h2
    exact eolBody_worded L hc _ (hs (by simpa using h2))

end AsmParser
