/-
Helper lemmas: lines that are filtered out and have no meaning leave no trace in text mode.
-/
import Verif.Spec.Mute
import Verif.Proofs.Gaps
import Verif.Proofs.Remarks
import Verif.Proofs.Silent

namespace AsmParser

attribute [local irreducible] Re.search Re.fullMatch

/-! ### Reading -/

/-- Without allocation number and owners. -/
def TLine.anon (l : TLine) : TLine := { l with id := 0, sect := l.sect.plain, source := l.source.plain }

/-- Without allocation numbers and owners, the lines that are left out, and the number of lines. -/
def TParser.anon (p : TParser) : TParser :=
  { filter := p.filter, st := p.st.plain, files := p.files, lines := p.lines.map TLine.anon, labelsDefined := p.labelsDefined
    usage := p.usage, reproducible := p.reproducible }

@[simp] theorem TLine.anon_anon (l : TLine) : l.anon.anon = l.anon := rfl

theorem anon_lines (ls : List TLine) : (ls.map TLine.anon).map TLine.anon = ls.map TLine.anon := by
  rw [List.map_map]; rfl

theorem TParser.anon_anon (p : TParser) : p.anon.anon = p.anon := by
  unfold TParser.anon
  simp [Function.comp_def]

theorem TParser.anon_ext {p q : TParser} (h1 : p.filter = q.filter) (h2 : p.st.plain = q.st.plain) (h3 : p.files = q.files)
    (h4 : p.lines.map TLine.anon = q.lines.map TLine.anon) (h5 : p.labelsDefined = q.labelsDefined)
    (h6 : p.usage = q.usage) (h7 : p.reproducible = q.reproducible) : p.anon = q.anon := by
  unfold TParser.anon
  rw [h1, h2, h3, h4, h5, h6, h7]

theorem amendRev_anon {s s' : TSource} (hs : s.plain = s'.plain) : ∀ {a b : List TLine}, a.map TLine.anon = b.map TLine.anon →
    (amendRev s a).map TLine.anon = (amendRev s' b).map TLine.anon := by
  intro a
  induction a with
  | nil =>
    intro b h
    cases b with
    | nil => rfl
    | cons _ _ => cases h
  | cons x a ih =>
    intro b h
    cases b with
    | nil => cases h
    | cons y b =>
      rw [List.map_cons, List.map_cons, List.cons.injEq] at h
      obtain ⟨h1, h2⟩ := h
      have k1 : x.isLabel = y.isLabel := (congrArg TLine.isLabel h1 :)
      have k2 : x.isInternalLabel = y.isInternalLabel := (congrArg TLine.isInternalLabel h1 :)
      have k3 : (x.amend s).anon = (y.amend s').anon := by
        have e : ∀ (l : TLine) (s : TSource), (l.amend s).anon = { l.anon with source := { s.plain with isUsercode := s.plain.isUsercode && !l.anon.isInternalLabel } } := fun _ _ => rfl
        rw [e, e, h1, hs]
      unfold amendRev
      rw [k1, k2]
      split
      · split
        · rw [List.map_cons, List.map_cons, k3, ih h2]
        · rw [List.map_cons, List.map_cons, k3, h2]
      · rw [List.map_cons, List.map_cons, h1, h2]

theorem amend_anon {p q : TParser} (h : p.anon = q.anon) {s s' : TSource} (hs : s.plain = s'.plain) :
    (p.amendPreviousLinesWith s).anon = (q.amendPreviousLinesWith s').anon := by
  have hl : p.lines.map TLine.anon = q.lines.map TLine.anon := (congrArg TParser.lines h :)
  have e : ∀ (p : TParser) s, (p.amendPreviousLinesWith s).anon = { p.anon with lines := ((amendRev s p.lines.reverse).map TLine.anon).reverse } := by
    intro p s
    simp [TParser.amendPreviousLinesWith, TParser.anon]
  have hh := amendRev_anon hs (show p.lines.reverse.map TLine.anon = q.lines.reverse.map TLine.anon by rw [List.map_reverse, List.map_reverse, hl])
  rw [e, e, h, hh]

/-- What is done to the last line at the beginning of a procedure. -/
def TLine.inProc (l : TLine) : TLine :=
  if l.isLabel && l.isInternalLabel then { l with source := { l.source with insideProc := true } } else l

def procStart : List TLine → List TLine
  | [] => []
  | l :: ls => (l.inProc :: ls).reverse

theorem inProc_anon {x y : TLine} (h : x.anon = y.anon) : x.inProc.anon = y.inProc.anon := by
  have e : ∀ l : TLine, l.inProc.anon = l.anon.inProc := by
    intro l
    unfold TLine.inProc
    have : (l.anon.isLabel && l.anon.isInternalLabel) = (l.isLabel && l.isInternalLabel) := rfl
    rw [this]
    split <;> rfl
  rw [e, e, h]

theorem mark_anon {p q : TParser} (h : p.anon = q.anon) :
    p.markPreviousInternalLabelAsInsideProc.anon = q.markPreviousInternalLabelAsInsideProc.anon := by
  have hl : p.lines.reverse.map TLine.anon = q.lines.reverse.map TLine.anon := by
    rw [List.map_reverse, List.map_reverse, show p.lines.map TLine.anon = q.lines.map TLine.anon from (congrArg TParser.lines h :)]
  have e : ∀ p : TParser, p.markPreviousInternalLabelAsInsideProc.anon = { p.anon with lines := (procStart p.lines.reverse).map TLine.anon } := by
    intro p
    unfold TParser.markPreviousInternalLabelAsInsideProc procStart
    cases p.lines.reverse <;> rfl
  rw [e, e, h]
  congr 1
  cases hp : p.lines.reverse with
  | nil =>
    rw [hp] at hl
    cases hq : q.lines.reverse with
    | nil => rfl
    | cons _ _ => rw [hq] at hl; cases hl
  | cons x a =>
    rw [hp] at hl
    cases hq : q.lines.reverse with
    | nil => rw [hq] at hl; cases hl
    | cons y b =>
      rw [hq, List.map_cons, List.map_cons, List.cons.injEq] at hl
      obtain ⟨h1, h2⟩ := hl
      unfold procStart
      rw [List.map_reverse, List.map_reverse, List.map_cons, List.map_cons, h2, inProc_anon h1]

/-- A step does not depend on what is left out. -/
theorem sources_anon (p : TParser) (ln : TLine) (i : Nat) :
    (p.handleSourceDirectives ln).1.anon = (p.anon.handleSourceDirectives (ln.At i)).1.anon ∧
    (p.handleSourceDirectives ln).2 = (p.anon.handleSourceDirectives (ln.At i)).2 := by
  unfold TParser.handleSourceDirectives
  have e1 : (ln.At i).text = ln.text := rfl
  have e2 : p.anon.st.inNvccCode = p.st.inNvccCode := rfl
  rw [e1, e2]
  split
  · refine ⟨?_, rfl⟩
    show TParser.anon _ = TParser.anon _
    unfold TParser.anon
    simp [TLine.anon_anon, TState.plain]
  · unfold TParser.handleFiledef
    cases getFileDef ln.text with
    | some d => exact ⟨by simp [TParser.anon, TLine.anon_anon], rfl⟩
    | none =>
      simp only [Option.map_none]
      unfold TParser.handleSource
      by_cases h : (getSourceRef ln.text).1 ≠ 0
      · simp only [if_pos h]
        refine ⟨?_, by trivial⟩
        refine amend_anon ?_ rfl
        simp [TParser.anon, TState.plain, TSource.plain]
      · simp only [if_neg h]
        unfold TParser.handleStabs
        cases getSourceInfoFromStabs ln.text with
        | some d =>
          simp only [Option.map_some]
          refine ⟨?_, by trivial⟩
          repeat' split
          all_goals simp [TParser.anon, TLine.anon_anon, TState.plain]
        | none =>
          simp only [Option.map_none]
          unfold TParser.handle6502
          cases get6502DbgInfo ln.text with
          | some d =>
            simp only [Option.map_some]
            refine ⟨?_, by trivial⟩
            split
            all_goals simp [TParser.anon, TLine.anon_anon, TState.plain, TSource.plain]
          | none =>
            simp only [Option.map_none]
            unfold TParser.handleD2
            cases getD2LineInfo ln.text with
            | some d =>
              simp only
              refine ⟨?_, by trivial⟩
              refine amend_anon ?_ rfl
              simp [TParser.anon, TState.plain, TSource.plain]
            | none =>
              simp only
              cases getD2FileInfo ln.text with
              | some d => exact ⟨by simp [TParser.anon, TLine.anon_anon, TState.plain], rfl⟩
              | none => exact ⟨by simp [TParser.anon_anon], rfl⟩

theorem section_anon (p : TParser) (i j : Nat) (t : Str) : (p.handleSection i t).anon = (p.anon.handleSection j t).anon := by
  unfold TParser.handleSection
  split <;> simp [TParser.anon, TLine.anon_anon, TState.plain]

theorem aliasing_anon (p : TParser) (ln : TLine) (i : Nat) : (p.handleLabelAliasing ln).anon = (p.anon.handleLabelAliasing (ln.At i)).anon := by
  unfold TParser.handleLabelAliasing
  have e1 : (ln.At i).isLabel = ln.isLabel := rfl
  have e2 : (ln.At i).isAssignment = ln.isAssignment := rfl
  have e3 : (ln.At i).hasOpcode = ln.hasOpcode := rfl
  have e4 : (ln.At i).isData = ln.isData := rfl
  have e5 : (ln.At i).label = ln.label := rfl
  have e6 : p.anon.st.previousLabelOnSameAddress.s = p.st.previousLabelOnSameAddress.s := rfl
  simp only [e1, e2, e3, e4, e5, e6]
  cases ln.isLabel <;> cases ln.isAssignment <;> cases ln.hasOpcode <;> cases ln.isData <;> cases p.st.previousLabelOnSameAddress.s.isEmpty <;>
    simp [TParser.anon, TLine.anon_anon, TState.plain]

theorem clear_anon {p q : TParser} (h : p.anon = q.anon) : p.clear.anon = q.clear.anon := by
  have e : ∀ p : TParser, p.clear.anon = p.anon.clear := fun _ => rfl
  rw [e, e, h]

theorem definition_anon (p : TParser) (ln : TLine) (i : Nat) :
    (p.handleLabelDefinition ln).1.anon = (p.anon.handleLabelDefinition (ln.At i)).1.anon ∧
    (p.anon.handleLabelDefinition (ln.At i)).2 = (p.handleLabelDefinition ln).2.At i := by
  unfold TParser.handleLabelDefinition
  have e1 : (ln.At i).text = ln.text := rfl
  rw [e1]
  cases getLabelFromLine ln.text with
  | none => exact ⟨by simp [TParser.anon_anon], rfl⟩
  | some d =>
    obtain ⟨l, a, c⟩ := d
    refine ⟨?_, rfl⟩
    simp only
    cases isInternalLabel l <;> simp [TParser.anon, TLine.anon_anon, TState.plain]
    all_goals rfl

theorem directive_anon (p : TParser) (i j : Nat) (t : Str) :
    (p.extractUsedLabelsFromDirective i t).anon = (p.anon.extractUsedLabelsFromDirective j t).anon := by
  unfold TParser.extractUsedLabelsFromDirective
  repeat' split
  all_goals simp [TParser.anon, TLine.anon_anon, TState.plain]

theorem opcode_anon (L : Locale) (p : TParser) (ln : TLine) (i : Nat) :
    (p.extractUsedLabelsFromOpcodeLine L ln).1.anon = (p.anon.extractUsedLabelsFromOpcodeLine L (ln.At i)).1.anon ∧
    (p.anon.extractUsedLabelsFromOpcodeLine L (ln.At i)).2 = (p.extractUsedLabelsFromOpcodeLine L ln).2.At i := by
  refine ⟨?_, rfl⟩
  exact TParser.anon_ext rfl rfl rfl (anon_lines _).symm (by simp [TParser.anon, TParser.extractUsedLabelsFromOpcodeLine]) rfl rfl

theorem data_anon (L : Locale) (p : TParser) (ln : TLine) (i : Nat) :
    (p.extractUsedLabelsFromDataLine L ln).1.anon = (p.anon.extractUsedLabelsFromDataLine L (ln.At i)).1.anon ∧
    (p.anon.extractUsedLabelsFromDataLine L (ln.At i)).2 = (p.extractUsedLabelsFromDataLine L ln).2.At i := by
  refine ⟨?_, rfl⟩
  exact TParser.anon_ext rfl rfl rfl (anon_lines _).symm (by simp [TParser.anon, TParser.extractUsedLabelsFromDataLine]) rfl rfl

theorem TLine.anon_of {a b : TLine} (h : b.isLabel = a.isLabel) (h1 : { b with id := 0, sect := a.sect, source := a.source } = { a with id := 0 })
    (h2 : b.sect.plain = a.sect.plain) (h3 : b.source.plain = a.source.plain) : a.anon = b.anon := by
  cases a; cases b
  simp only [TLine.mk.injEq] at h1
  simp only at h h2 h3
  simp [TLine.anon, h, h2, h3, h1]

theorem append_anon {p q : TParser} (h : p.anon = q.anon) {a b : TLine} (hab : a.anon = b.anon) (x y : List (Option Nat)) :
    TParser.anon { p with lines := p.lines ++ [a], stored := x } = TParser.anon { q with lines := q.lines ++ [b], stored := y } := by
  have ht : a.text = b.text := (congrArg TLine.text hab :)
  have e : ∀ (p : TParser) (a : TLine) x, TParser.anon { p with lines := p.lines ++ [a], stored := x } =
      { p.anon with lines := p.anon.lines ++ [a.anon] } := by
    intro p a x
    simp [TParser.anon]
  rw [e, e, h, hab]

theorem push_anon {p q : TParser} (h : p.anon = q.anon) (ln : TLine) (i : Nat) : (p.push ln).anon = (q.push (ln.At i)).anon := by
  unfold TParser.push
  have k1 : p.st.previousParentLabel.s = q.st.previousParentLabel.s := (congrArg (fun p => p.st.previousParentLabel.s) h :)
  have k2 : p.st.currentSourceRef.plain = q.st.currentSourceRef.plain := (congrArg (fun p => p.st.currentSourceRef) h :)
  have k3 : p.st.currentSection.plain = q.st.currentSection.plain := (congrArg (fun p => p.st.currentSection) h :)
  refine clear_anon (append_anon ?_ ?_ _ _)
  · rw [aliasing_anon p _ 0, aliasing_anon q _ 0, h]
    have : ∀ (p : TParser) (a b : TLine), b.label = a.label → b.isLabel = a.isLabel → b.isAssignment = a.isAssignment → b.hasOpcode = a.hasOpcode →
        b.isData = a.isData → b.id = a.id → p.handleLabelAliasing a = p.handleLabelAliasing b := by
      intro p a b h1 h2 h3 h4 h5 h6
      unfold TParser.handleLabelAliasing
      rw [h1, h2, h3, h4, h5, h6]
    refine congrArg TParser.anon (this q.anon _ _ ?_ ?_ ?_ ?_ ?_ ?_) <;> rfl
  · refine TLine.anon_of rfl ?_ k3.symm k2.symm
    simp [TLine.At, k1]

/-- The same up to what is left out. -/
structure Twin (i : Nat) (r r' : TParser × TLine) : Prop where
  anon : r.1.anon = r'.1.anon
  line : r'.2 = r.2.At i

theorem ops_twin (L : Locale) {i : Nat} {r r' : TParser × TLine} (h : Twin i r r') : Twin i (TParser.ops L r) (TParser.ops L r') := by
  obtain ⟨p, a⟩ := r
  obtain ⟨q, b⟩ := r'
  obtain ⟨h1, h2⟩ := h
  have h1 : p.anon = q.anon := h1
  have h2 : b = a.At i := h2
  subst h2
  unfold TParser.ops
  have f1 : (a.At i).isLabel = a.isLabel := rfl
  have f2 : (a.At i).hasOpcode = a.hasOpcode := rfl
  rw [f1, f2]
  split
  · refine ⟨?_, rfl⟩
    rw [(opcode_anon L p a i).1, h1, (opcode_anon L q (a.At i) i).1]
    rfl
  · exact ⟨h1, rfl⟩

theorem datas_twin (L : Locale) {i : Nat} {r r' : TParser × TLine} (h : Twin i r r') : Twin i (TParser.datas L r) (TParser.datas L r') := by
  obtain ⟨p, a⟩ := r
  obtain ⟨q, b⟩ := r'
  obtain ⟨h1, h2⟩ := h
  have h1 : p.anon = q.anon := h1
  have h2 : b = a.At i := h2
  subst h2
  unfold TParser.datas
  have f1 : (a.At i).isLabel = a.isLabel := rfl
  have f2 : (a.At i).isData = a.isData := rfl
  rw [f1, f2]
  split
  · refine ⟨?_, rfl⟩
    rw [(data_anon L p a i).1, h1, (data_anon L q (a.At i) i).1]
    rfl
  · exact ⟨h1, rfl⟩

theorem finish_same (L : Locale) {p q : TParser} (h : p.anon = q.anon) (ln : TLine) (i : Nat) :
    (p.eolFinish L ln).anon = (q.eolFinish L (ln.At i)).anon := by
  have e4 : p.st.inCustomAssembly = q.st.inCustomAssembly := (congrArg (fun p => p.st.inCustomAssembly) h :)
  have e5 : p.st.inNvccCode = q.st.inNvccCode := (congrArg (fun p => p.st.inNvccCode) h :)
  rw [finish_push, finish_push]
  have hp : Twin i (p, p.prep ln) (q, q.prep (ln.At i)) := ⟨h, by unfold TParser.prep TLine.At; rw [e4, e5]⟩
  have := datas_twin L (ops_twin L hp)
  rw [this.line]
  exact push_anon this.anon _ i

theorem dirStep_same (L : Locale) {p q : TParser} (h : p.anon = q.anon) (l : TLine) (i : Nat) :
    (p.dirStep L l).anon = (q.dirStep L (l.At i)).anon := by
  have f1 : (l.At i).text = l.text := rfl
  have f2 : (l.At i).isDirective = l.isDirective := rfl
  unfold TParser.dirStep
  rw [f1, f2]
  split
  · have hd : (p.extractUsedLabelsFromDirective l.id l.text).anon = (q.extractUsedLabelsFromDirective (l.At i).id l.text).anon := by
      rw [directive_anon p _ 0, directive_anon q _ 0, h]
    have hf : (p.extractUsedLabelsFromDirective l.id l.text).filter = (q.extractUsedLabelsFromDirective (l.At i).id l.text).filter :=
      (congrArg TParser.filter hd :)
    generalize p.extractUsedLabelsFromDirective l.id l.text = p1 at *
    generalize q.extractUsedLabelsFromDirective (l.At i).id l.text = q1 at *
    by_cases hx : q1.filter.directives = true
    · simp only [hf, hx, if_true]
      refine clear_anon (Eq.trans (Eq.trans ?_ hd) ?_)
      · rw [← hf]; rfl
      · rfl
    · simp only [hf, hx]
      exact finish_same L hd l i
  · exact finish_same L h l i

theorem eolDirective_same (L : Locale) {p q : TParser} (h : p.anon = q.anon) (ln : TLine) (i : Nat) (b : Bool) :
    (p.eolDirective L ln b).anon = (q.eolDirective L (ln.At i) b).anon := by
  have e1 : (ln.At i).text = ln.text := rfl
  have e2 : (ln.At i).isLabel = ln.isLabel := rfl
  have e3 : (ln.At i).isData = ln.isData := rfl
  have e4 : p.st.inNvccDef = q.st.inNvccDef := (congrArg (fun p => p.st.inNvccDef) h :)
  have eq : ∀ (p : TParser) (ln : TLine), p.eolDirective L ln b = if p.st.inNvccDef then
    (if isCudaEndDef ln.text then { p with st := { p.st with inNvccDef := false } } else p).eolFinish L ln
  else if !ln.isLabel && !ln.isData then p.dirStep L (if b then ln else { ln with isDirective := isDirective ln.text })
  else p.eolFinish L ln := fun _ _ => rfl
  rw [eq, eq, e1, e2, e3, e4]
  split
  · refine finish_same L ?_ ln i
    split
    · have e : ∀ p : TParser, TParser.anon { p with st := { p.st with inNvccDef := false } } = { p.anon with st := { p.anon.st with inNvccDef := false } } := fun _ => rfl
      rw [e, e, h]
    · exact h
  split
  · cases b
    · exact dirStep_same L h { ln with isDirective := isDirective ln.text } i
    · exact dirStep_same L h ln i
  · exact finish_same L h ln i

theorem eolLabel_same (L : Locale) {p q : TParser} (h : p.anon = q.anon) (ln : TLine) (i : Nat) (b : Bool) :
    (p.eolLabel L ln b).anon = (q.eolLabel L (ln.At i) b).anon := by
  unfold TParser.eolLabel
  split
  · exact eolDirective_same L h { ln with isData := false, isDirective := true, isLabel := false, isInternalLabel := false } i b
  · simp only
    have d1 := definition_anon p ln i
    have d2 := definition_anon q (ln.At i) i
    have e : (q.handleLabelDefinition (ln.At i)).2 = (p.handleLabelDefinition ln).2.At i := by
      unfold TParser.handleLabelDefinition
      have e1 : (ln.At i).text = ln.text := rfl
      rw [e1]
      cases getLabelFromLine ln.text with
      | none => rfl
      | some d => rfl
    rw [e]
    exact eolDirective_same L (d1.1.trans (by rw [h]; exact d2.1.symm)) { (p.handleLabelDefinition ln).2 with isData := isDataDefn ln.text, isDirective := false } i b

theorem eolComment_same (L : Locale) {p q : TParser} (h : p.anon = q.anon) (ln : TLine) (i : Nat) (raw : Str) (b : Bool) :
    (p.eolComment L ln raw b).anon = (q.eolComment L (ln.At i) raw b).anon := by
  have e4 : p.st.inNvccCode = q.st.inNvccCode := (congrArg (fun p => p.st.inNvccCode) h :)
  have e5 : p.filter = q.filter := (congrArg TParser.filter h :)
  unfold TParser.eolComment
  rw [e4, e5]
  split
  · exact clear_anon h
  · exact eolLabel_same L h ln i b

theorem eolLibrary_same (L : Locale) {p q : TParser} (h : p.anon = q.anon) (hl : p.filter.libraryFunctions = false) (ln : TLine) (i : Nat) (raw : Str) (b : Bool) :
    (p.eolLibrary L ln raw b).anon = (q.eolLibrary L (ln.At i) raw b).anon := by
  have e5 : p.filter = q.filter := (congrArg TParser.filter h :)
  unfold TParser.eolLibrary
  rw [if_neg (by rw [hl]; simp), if_neg (by rw [← e5, hl]; simp)]
  exact eolComment_same L (p := { p with st := { p.st with mayRemovePreviousLabel := true } }) (q := { q with st := { q.st with mayRemovePreviousLabel := true } }) h ln i raw b

theorem eolSource_same (L : Locale) {p q : TParser} (h : p.anon = q.anon) (hl : p.filter.libraryFunctions = false) (ln : TLine) (i : Nat) (raw : Str) :
    (p.eolSource L ln raw).anon = (q.eolSource L (ln.At i) raw).anon := by
  have s1 := sources_anon p ln i
  have s2 := sources_anon q (ln.At i) i
  have e1 : (p.handleSourceDirectives ln).1.anon = (q.handleSourceDirectives (ln.At i)).1.anon := by rw [s1.1, h, s2.1]; rfl
  have e2 : (q.handleSourceDirectives (ln.At i)).2 = (p.handleSourceDirectives ln).2 := by rw [s1.2, h, s2.2]; rfl
  unfold TParser.eolSource
  simp only [e2]
  have e3 : (if (!(p.handleSourceDirectives ln).2) = true then (p.handleSourceDirectives ln).1.handleSection ln.id ln.text else (p.handleSourceDirectives ln).1).anon =
      (if (!(p.handleSourceDirectives ln).2) = true then (q.handleSourceDirectives (ln.At i)).1.handleSection (ln.At i).id (ln.At i).text
        else (q.handleSourceDirectives (ln.At i)).1).anon := by
    split
    · rw [section_anon _ _ 0, section_anon (q.handleSourceDirectives (ln.At i)).1 _ 0, e1]; rfl
    · exact e1
  refine eolLibrary_same L e3 ?_ ln i raw _
  have : ∀ r : TParser, (r.anon).filter = r.filter := fun _ => rfl
  rw [← this, e3, this]
  have k : ∀ (r : TParser) j t, (r.handleSection j t).filter = r.filter := by
    intro r j t; unfold TParser.handleSection; split <;> rfl
  have k2 : (q.handleSourceDirectives (ln.At i)).1.filter = q.filter := by
    unfold TParser.handleSourceDirectives TParser.handleFiledef TParser.handleSource TParser.handleStabs TParser.handle6502 TParser.handleD2
    cases getFileDef (ln.At i).text <;> cases getSourceInfoFromStabs (ln.At i).text <;> cases get6502DbgInfo (ln.At i).text <;>
      cases getD2LineInfo (ln.At i).text <;> cases getD2FileInfo (ln.At i).text <;> by_cases hs : (getSourceRef (ln.At i).text).1 = 0 <;>
      simp only [hs, Option.map_some, Option.map_none, ne_eq, not_true_eq_false, not_false_eq_true, if_true, if_false]
    all_goals
      repeat' split
      all_goals rfl
  have hq : q.filter = p.filter := (congrArg TParser.filter h.symm :)
  split <;> simp [k, k2, hq, hl]

theorem body2_same (L : Locale) {p q : TParser} (h : p.anon = q.anon) (hl : p.filter.libraryFunctions = false) (t raw : Str) (i j : Nat) :
    (p.body2 L t raw i).anon = (q.body2 L t raw j).anon := by
  have e4 : p.st.currentSourceRef.line = q.st.currentSourceRef.line := (congrArg (fun p => p.st.currentSourceRef.line) h :)
  unfold TParser.body2
  rw [e4]
  split
  · have hm : p.markPreviousInternalLabelAsInsideProc.anon = q.markPreviousInternalLabelAsInsideProc.anon := mark_anon h
    have g1 : p.markPreviousInternalLabelAsInsideProc.filter = q.markPreviousInternalLabelAsInsideProc.filter := (congrArg TParser.filter hm :)
    have g2 : p.markPreviousInternalLabelAsInsideProc.filter.libraryFunctions = false := hl
    rw [g1]
    split
    · exact clear_anon hm
    · exact eolSource_same L hm g2 { id := i, text := t } j _
  · exact eolSource_same L h hl { id := i, text := t } j _

theorem eolBody_same (L : Locale) {p q : TParser} (h : p.anon = q.anon) (hl : p.filter.libraryFunctions = false) (i j : Nat) :
    (p.eolBody L i).anon = (q.eolBody L j).anon := by
  have e1 : p.st.text = q.st.text := (congrArg (fun p => p.st.text) h :)
  have e2 : p.st.inCustomAssembly = q.st.inCustomAssembly := (congrArg (fun p => p.st.inCustomAssembly) h :)
  have e3 : p.filter = q.filter := (congrArg TParser.filter h :)
  have eq : ∀ (p : TParser) i, p.eolBody L i = (p.nest (nesting p.st.inCustomAssembly p.st.text)).body2 L
    (lineText p.filter (nesting p.st.inCustomAssembly p.st.text) p.st.text) p.st.text i := fun _ _ => rfl
  rw [eq, eq, e1, e2, e3]
  generalize nesting q.st.inCustomAssembly q.st.text = n
  refine body2_same L (p := p.nest n) (q := q.nest n) ?_ hl _ _ i j
  have e : ∀ (p : TParser) n, (p.nest n).anon = p.anon.nest n := fun _ _ => rfl
  rw [e, e, h]

theorem maybeAddBlank_anon {p q : TParser} (h : p.anon = q.anon) (i j : Nat) : (p.maybeAddBlank i).anon = (q.maybeAddBlank j).anon := by
  have hl : p.lines.map TLine.anon = q.lines.map TLine.anon := (congrArg TParser.lines h :)
  have h1 : p.lines.getLast?.map TLine.anon = q.lines.getLast?.map TLine.anon := by
    rw [← List.getLast?_map, ← List.getLast?_map, hl]
  unfold TParser.maybeAddBlank
  cases hp : p.lines.getLast? with
  | none =>
    rw [hp] at h1
    cases hq : q.lines.getLast? with
    | none => exact h
    | some y => rw [hq] at h1; cases h1
  | some x =>
    rw [hp] at h1
    cases hq : q.lines.getLast? with
    | none => rw [hq] at h1; cases h1
    | some y =>
      rw [hq] at h1
      have ht : x.text = y.text := by
        simp only [Option.map_some, Option.some.injEq] at h1
        exact (congrArg TLine.text h1 :)
      simp only [ht]
      split
      · exact h
      · exact append_anon h (a := { id := i }) (b := { id := j }) rfl p.stored q.stored

theorem eol2_same (L : Locale) {p q : TParser} (h : p.anon = q.anon) (hl : p.filter.libraryFunctions = false) (i j : Nat) :
    (p.eol2 L i).anon = (q.eol2 L j).anon := by
  have e1 : p.st.text = q.st.text := (congrArg (fun p => p.st.text) h :)
  have e2 : p.st.hasStartedCommentBlock = q.st.hasStartedCommentBlock := (congrArg (fun p => p.st.hasStartedCommentBlock) h :)
  have e3 : p.filter = q.filter := (congrArg TParser.filter h :)
  have c1 : (p.filter.commentOnly && (p.st.hasStartedCommentBlock || startCommentBlock p.st.text)) =
    (q.filter.commentOnly && (q.st.hasStartedCommentBlock || startCommentBlock q.st.text)) := by rw [e1, e2, e3]
  have c2 : isEmptyOrJustWhitespace p.st.text = isEmptyOrJustWhitespace q.st.text := by rw [e1]
  by_cases h1 : (p.filter.commentOnly && (p.st.hasStartedCommentBlock || startCommentBlock p.st.text)) = true
  · have h1' := c1.symm.trans h1
    unfold TParser.eol2
    rw [if_pos h1, if_pos h1']
    refine clear_anon ?_
    have e : ∀ (p : TParser) b, (p.inComment b).anon = p.anon.inComment b := fun _ _ => rfl
    rw [e, e, h, e1]
  · have h1' := h1
    rw [c1] at h1'
    by_cases h2 : isEmptyOrJustWhitespace p.st.text = true
    · have h2' := c2.symm.trans h2
      unfold TParser.eol2
      rw [if_neg h1, if_neg h1', if_pos h2, if_pos h2']
      exact maybeAddBlank_anon h _ _
    · have h2' := h2
      rw [c2] at h2'
      unfold TParser.eol2
      rw [if_neg h1, if_neg h1', if_neg h2, if_neg h2']
      exact eolBody_same L h hl _ _

theorem eol_same (L : Locale) {p q : TParser} (h : p.anon = q.anon) (hl : p.filter.libraryFunctions = false) : (p.eol L).anon = (q.eol L).anon := by
  have eq : ∀ p : TParser, p.eol L = p.count.eol2 L p.nextId := fun _ => rfl
  rw [eq, eq]
  exact eol2_same L (p := p.count) (q := q.count) h hl _ _



/-! ### Lines without a meaning -/

theorem pass_anon {p : TParser} (hl : p.filter.libraryFunctions = false) (ht : p.st.text = []) : p.pass.anon = p.anon := by
  unfold TParser.pass
  rw [hl]
  refine TParser.anon_ext rfl ?_ rfl rfl rfl rfl rfl
  show TState.plain { p.st with mayRemovePreviousLabel := true, text := [] } = _
  unfold TState.plain
  simp [ht]

theorem count_anon (p : TParser) : TParser.anon { p with totalLines := p.totalLines + 1, nextId := p.nextId + 2 } = p.anon := rfl

theorem eol_remark_anon (L : Locale) {p : TParser} (l : Str) (hc : p.filter.commentOnly = true) (hi : p.st.hasStartedCommentBlock = false)
    (hf : p.filter.libraryFunctions = false) (hp : p.st.text = []) (hl : Remark l) : ((p.addText l).eol L).anon = p.anon := by
  have hh := eol_remark L p l hc hi (by rw [hp]; intro c hc; cases hc) hl
  rw [hh]
  exact pass_anon (p := { p with totalLines := p.totalLines + 1, nextId := p.nextId + 2 }) hf hp

theorem eol_block_anon (L : Locale) {p : TParser} (l : Str) (hc : p.filter.commentOnly = true)
    (hi : p.st.hasStartedCommentBlock = true ∨ opensComment l = true) (hp : p.st.text = []) :
    ((p.addText l).eol L).anon = (p.inComment (!occurs b! "*/" l)).anon := by
  unfold TParser.eol
  simp only [TParser.addText, hp, List.nil_append, hc, startCommentBlock_opens, endCommentBlock_occurs]
  rw [if_pos (by simpa using hi)]
  refine TParser.anon_ext rfl ?_ rfl rfl rfl rfl rfl
  show TState.plain { p.st with hasStartedCommentBlock := !occurs b! "*/" l, text := [] } = TState.plain { p.st with hasStartedCommentBlock := !occurs b! "*/" l }
  unfold TState.plain
  simp [hp]

theorem extract_none {p : TParser} {t : Str} (h : ∀ a, ¬ DeclaresSymbol symbolDirectives t a) (i : Nat) : p.extractUsedLabelsFromDirective i t = p := by
  have wk : ∀ {ks t a}, DeclaresSymbol ks t a → (∀ k ∈ ks, k ∈ symbolDirectives) → DeclaresSymbol symbolDirectives t a := by
    rintro ks t a ⟨bs, kw, bs', r, h1, h2, h3⟩ hk
    exact ⟨bs, kw, bs', r, h1, hk _ h2, h3⟩
  have h1 : getWeakDefinedLabel t = none := by
    cases hw : getWeakDefinedLabel t with
    | none => rfl
    | some a =>
      exfalso
      rcases (getWeak_iff t a).1 hw with g | ⟨g, -⟩
      · exact h a (wk g (by intro k hk; rw [List.mem_singleton.1 hk]; simp [symbolDirectives]))
      · exact h a (wk g (by intro k hk; rw [List.mem_singleton.1 hk]; simp [symbolDirectives]))
  have h2 : getGlobalDefinedLabel t = none := by
    cases hw : getGlobalDefinedLabel t with
    | none => rfl
    | some a =>
      exact absurd (wk ((getGlobal_iff t a).1 hw) (by intro k hk; exact List.mem_append_right _ hk)) (h a)
  unfold TParser.extractUsedLabelsFromDirective
  rw [h1, h2]

theorem eolDirective_mute (L : Locale) (p : TParser) (ln : TLine) (hd : p.filter.directives = true) (hn : p.st.inNvccDef = false)
    (h1 : ln.isLabel = false) (h2 : ln.isData = false) (h3 : isDirective ln.text = true) (h4 : isInstOpcode ln.text = false)
    (h5 : ∀ a, ¬ DeclaresSymbol symbolDirectives ln.text a) : (p.eolDirective L ln false).anon = p.clear.anon := by
  unfold TParser.eolDirective
  rw [if_neg (by rw [hn]; simp), if_pos (by rw [h1, h2]; rfl)]
  simp only [Bool.false_eq_true, if_false, h3, h4, Bool.not_false, Bool.and_self, if_true]
  rw [extract_none h5, if_pos hd]
  rfl

theorem eolSource_mute (L : Locale) (p : TParser) (i : Nat) (t raw : Str) (hd : p.filter.directives = true) (hn : p.st.inNvccDef = false)
    (hf : p.filter.libraryFunctions = false) (h0 : ¬ Seen.Ends { text := t, code := p.st.inNvccCode }) (h1 : ¬ SourceInfo t)
    (h2 : getSectionNameDef t = none) (h3 : getLabelFromLine t = none) (h4 : isDataDefn t = false) (h5 : isDirective t = true)
    (h6 : isInstOpcode t = false) (h7 : ∀ a, ¬ DeclaresSymbol symbolDirectives t a) :
    (p.eolSource L { id := i, text := t } raw).anon = p.clear.anon := by
  have hh := sources_none p { id := i, text := t } h0 h1
  unfold TParser.eolSource
  rw [hh]
  simp only [TParser.handleSection, h2, Bool.not_false, if_true]
  unfold TParser.eolLibrary
  rw [if_neg (by rw [hf]; simp)]
  unfold TParser.eolComment
  split
  · rfl
  · unfold TParser.eolLabel TParser.handleLabelDefinition
    simp only [h3, Bool.false_eq_true, if_false, h4]
    exact eolDirective_mute L { p with st := { p.st with mayRemovePreviousLabel := true } } _ hd hn rfl rfl h5 h6 h7

theorem eol_mute (L : Locale) {p : TParser} (l : Str) (hd : p.filter.directives = true) (hi : p.filter.commentOnly = true → p.st.hasStartedCommentBlock = false)
    (hn : p.st.inNvccDef = false) (hf : p.filter.libraryFunctions = false) (hp : p.st.text = []) (hl : MuteDirective p.filter l) :
    ((p.addText l).eol L).anon = p.anon := by
  have hs : ∀ n, ∃ inl, Shown p.filter (lineText p.filter n l) inl l := by
    intro n
    obtain ⟨inl, h⟩ := shown_of_line p.filter n (ws := []) (l := l) (by intro c hc; cases hc)
    exact ⟨inl, h⟩
  obtain ⟨bs, r, k1, k2⟩ : Directive l := by
    obtain ⟨b0, r0, j1, j2⟩ := (hl (cleaned p.filter l) false ⟨[], [], l, fun c hc => (by cases hc), rfl, fun c hc => (by cases hc), .inl rfl, rfl⟩).1.1
    have hy : nonBlanks l = c! '.' :: nonBlanks r0 := by
      rw [← nonBlanks_cleaned p.filter l, j2, nonBlanks_append, nonBlanks_blanks.2 j1, List.nil_append]
      unfold nonBlanks; rw [List.filter_cons, if_pos (by decide)]
    obtain ⟨bs, r, k1, k2, -⟩ := nonBlanks_split hy
    exact ⟨bs, r, k1, k2⟩
  have hcb : ¬ Blank c! '.' := by decide
  have nopen : startCommentBlock l = false := by
    cases h : startCommentBlock l with
    | false => rfl
    | true =>
      rw [startCommentBlock_iff] at h
      obtain ⟨b2, r2, g1, g2⟩ := h
      rw [k2, show b2 ++ b! "/*" ++ r2 = b2 ++ c! '/' :: (c! '*' :: r2) by simp] at g2
      exact absurd (split_unique k1 g1 hcb (by decide) g2).2.1 (by decide)
  have nblank : isEmptyOrJustWhitespace l = false := by
    cases h : isEmptyOrJustWhitespace l with
    | false => rfl
    | true => exact absurd (blanks_white.1 h c! '.' (by rw [k2]; simp)) hcb
  have hnest : nesting p.st.inCustomAssembly l = p.st.inCustomAssembly := by
    have no : ∀ w ∈ [b! "#APP", b! "#NO_APP", b! "# Begin ASM", b! "# End ASM"], ¬ ∃ bs r, Blanks bs ∧ l = bs ++ w ++ r := by
      rintro w hw ⟨b2, r2, g1, g2⟩
      obtain ⟨w', hw'⟩ : ∃ w', w = c! '#' :: w' := by
        simp only [List.mem_cons, List.not_mem_nil, or_false] at hw
        rcases hw with rfl | rfl | rfl | rfl <;> exact ⟨_, rfl⟩
      rw [k2, hw', show b2 ++ (c! '#' :: w') ++ r2 = b2 ++ c! '#' :: (w' ++ r2) by simp] at g2
      exact absurd (split_unique k1 g1 hcb (by decide) g2).2.1 (by decide)
    have f1 : startAppBlock l = false := by rw [← Bool.not_eq_true, startAppBlock_iff]; exact no _ (by simp)
    have f2 : startAsmNesting l = false := by rw [← Bool.not_eq_true, startAsmNesting_iff]; exact no _ (by simp)
    have f3 : endAppBlock l = false := by rw [← Bool.not_eq_true, endAppBlock_iff]; exact no _ (by simp)
    have f4 : endAsmNesting l = false := by rw [← Bool.not_eq_true, endAsmNesting_iff]; exact no _ (by simp)
    unfold nesting
    rw [f1, f2, f3, f4]
    rfl
  obtain ⟨inl, hsh⟩ := hs p.st.inCustomAssembly
  obtain ⟨m1, m2, m3, m4, m5, m6⟩ := hl _ _ hsh
  have nproc : startProcBlock (lineText p.filter p.st.inCustomAssembly l) = false := by
    rw [← Bool.not_eq_true, startProcBlock_iff]; exact m4
  have nends : ¬ Seen.Ends { text := lineText p.filter p.st.inCustomAssembly l, code := p.st.inNvccCode } := by
    rintro (h | ⟨-, h⟩)
    · exact m3 h
    · exact m6 h
  have nsect : getSectionNameDef (lineText p.filter p.st.inCustomAssembly l) = none := by
    cases h : getSectionNameDef (lineText p.filter p.st.inCustomAssembly l) with
    | none => rfl
    | some name =>
      exfalso
      obtain ⟨a, kw, r, g1, g2, -⟩ := getSection_iff.1 h
      refine m3 ⟨b! "." ++ kw, ?_, ⟨a, r, by rw [g2]; simp⟩⟩
      simp only [List.mem_cons, List.not_mem_nil, or_false] at g1
      rcases g1 with rfl | rfl | rfl <;> simp
  have nlab : getLabelFromLine (lineText p.filter p.st.inCustomAssembly l) = none := Option.isNone_iff_eq_none.1 ((getLabelFromLine_isNone _).2 m1.2.1)
  have ndat : isDataDefn (lineText p.filter p.st.inCustomAssembly l) = false := by
    rw [← Bool.not_eq_true, isDataDefn_iff]; exact m1.2.2.1
  have ninst : isInstOpcode (lineText p.filter p.st.inCustomAssembly l) = false := by
    rw [← Bool.not_eq_true, isInstOpcode_iff]; exact m1.2.2.2
  have hdir : isDirective (lineText p.filter p.st.inCustomAssembly l) = true := (isDirective_iff _).2 m1.1
  have ht : (p.addText l).st.text = l := by show p.st.text ++ l = l; rw [hp]; rfl
  have eq : (p.addText l).eol L = (p.addText l).count.eol2 L p.nextId := rfl
  rw [eq]
  have e2 : (p.addText l).count.st.text = l := ht
  unfold TParser.eol2
  rw [e2, nopen, nblank]
  have e3 : (p.addText l).count.filter = p.filter := rfl
  have e4 : (p.addText l).count.st.hasStartedCommentBlock = p.st.hasStartedCommentBlock := rfl
  rw [e3, e4, if_neg (by
    intro h
    simp only [Bool.or_false, Bool.and_eq_true] at h
    rw [hi h.1] at h
    cases h.2), if_neg (by simp)]
  have e5 : (p.addText l).count.eolBody L p.nextId = ((p.addText l).count.nest (nesting p.st.inCustomAssembly (p.addText l).count.st.text)).body2 L
    (lineText p.filter (nesting p.st.inCustomAssembly (p.addText l).count.st.text) (p.addText l).count.st.text) (p.addText l).count.st.text p.nextId := rfl
  rw [e5, e2, hnest]
  unfold TParser.body2
  rw [nproc, if_neg (by simp)]
  have key := eolSource_mute L ((p.addText l).count.nest p.st.inCustomAssembly) p.nextId (lineText p.filter p.st.inCustomAssembly l) l hd hn hf nends m2 nsect nlab
    ndat hdir ninst m5
  rw [key]
  refine TParser.anon_ext rfl ?_ rfl rfl rfl rfl rfl
  show TState.plain { p.st with inCustomAssembly := p.st.inCustomAssembly, text := [] } = TState.plain p.st
  unfold TState.plain
  rw [hp]

/-! ### Marking and removing -/

theorem Mark.set_anon (m : Mark) (l : TLine) : (m.set l).anon = m.set l.anon := by cases m <;> rfl

theorem markLoop_anon (o : Order) (n : Nat) (names : List Str) : ∀ {p q : TParser} (v : List Str), p.anon = q.anon →
    (p.markLoop o n names v).map (fun r => (r.1.anon, r.2)) = (q.markLoop o n names v).map (fun r => (r.1.anon, r.2)) := by
  induction names with
  | nil =>
    intro p q v h
    simp [TParser.markLoop, h]
  | cons a names ih =>
    intro p q v h
    have hd : p.labelsDefined = q.labelsDefined := (congrArg TParser.labelsDefined h :)
    have hu : p.usage = q.usage := (congrArg TParser.usage h :)
    have hl : p.lines.map TLine.anon = q.lines.map TLine.anon := (congrArg TParser.lines h :)
    rw [TParser.markLoop, TParser.markLoop]
    simp only [hd, hu]
    generalize (q.labelsDefined.lookup a).getD 0 - 1 = i
    have hi : p.lines[i]?.map TLine.anon = q.lines[i]?.map TLine.anon := by rw [← List.getElem?_map, ← List.getElem?_map, hl]
    cases hp : p.lines[i]? with
    | none =>
      rw [hp] at hi
      cases hq : q.lines[i]? with
      | none =>
        refine ih (p := { p with labelsDefined := q.labelsDefined, usage := q.usage, ub := true }) (q := { q with ub := true }) v ?_
        exact TParser.anon_ext (congrArg TParser.filter h :) (congrArg TParser.st h :) (congrArg TParser.files h :) hl rfl rfl (congrArg TParser.reproducible h :)
      | some y => rw [hq] at hi; cases hi
    | some x =>
      rw [hp] at hi
      cases hq : q.lines[i]? with
      | none => rw [hq] at hi; cases hi
      | some y =>
        rw [hq] at hi
        simp only [Option.map_some, Option.some.injEq] at hi
        have hlab : x.label = y.label := (congrArg TLine.label hi :)
        simp only [markLine_verdict, hlab]
        cases verdict q.usage o n y.label v with
        | none => rfl
        | some r =>
          obtain ⟨m, w⟩ := r
          simp only [Option.map_some]
          refine ih w ?_
          refine TParser.anon_ext (congrArg TParser.filter h :) (congrArg TParser.st h :) (congrArg TParser.files h :) ?_ rfl rfl (congrArg TParser.reproducible h :)
          rw [List.map_set, List.map_set, hl, m.set_anon, m.set_anon, hi]

theorem finishKept_anon {p q : TParser} (h : p.anon = q.anon) {x y : TLine} (hl : x.anon = y.anon) : (p.finishKept x).anon = (q.finishKept y).anon := by
  have e : ∀ (p : TParser) (l : TLine), (p.finishKept l).anon = (p.anon.finishKept l.anon).anon := by
    intro p l
    unfold TParser.finishKept
    have e1 : l.anon.source.fileIdx = l.source.fileIdx := rfl
    have e2 : p.anon.files = p.files := rfl
    simp only [e1, e2]
    by_cases hi : l.source.fileIdx = 0
    · simp only [hi, ne_eq, not_true_eq_false, if_false]
      rfl
    · simp only [hi, ne_eq, not_false_eq_true, if_true]
      cases p.files.lookup l.source.fileIdx <;> rfl
  rw [e, e q, h, hl]

theorem removeLoop_anon {p q : TParser} (h : p.anon = q.anon) (ls : List TLine) : ∀ (ls' : List TLine) (r : RemState), ls.map TLine.anon = ls'.map TLine.anon →
    (p.removeLoop r ls).1.map TLine.anon = (q.removeLoop r ls').1.map TLine.anon := by
  have hf : p.filter = q.filter := (congrArg TParser.filter h :)
  have hu : p.usage = q.usage := (congrArg TParser.usage h :)
  induction ls with
  | nil =>
    intro ls' r hl
    cases ls' with
    | nil => rfl
    | cons _ _ => cases hl
  | cons x ls ih =>
    intro ls' r hl
    cases ls' with
    | nil => cases hl
    | cons y ls' =>
      rw [List.map_cons, List.map_cons, List.cons.injEq] at hl
      have k1 : ∀ f g r, remLabel f g r x = remLabel f g r y := by
        intro f g r
        have : ∀ l, remLabel f g r l = remLabel f g r l.anon := fun _ => rfl
        rw [this, this y, hl.1]
      have k2 : ∀ f r b, remDrop f r b x = remDrop f r b y := by
        intro f r b
        have : ∀ l, remDrop f r b l = remDrop f r b l.anon := fun _ => rfl
        rw [this, this y, hl.1]
      rw [TParser.removeLoop, TParser.removeLoop]
      simp only [k1, k2, hf, hu]
      have := ih ls' (remLabel q.filter q.usage r y).1 hl.2
      split
      · exact this
      · rw [List.map_cons, List.map_cons, this, finishKept_anon h hl.1]

theorem filterNonLabels_anon {p q : TParser} (h : p.anon = q.anon) : p.filterNonLabels.anon = q.filterNonLabels.anon := by
  have e : ∀ p : TParser, p.filterNonLabels.anon = p.anon.filterNonLabels := fun _ => rfl
  rw [e, e, h]

/-- The result. -/
theorem result_anon {L : Locale} {p q : TParser} {s s' : Str} (h : (p.readStream L s).anon = (q.readStream L s').anon) (o : Order) (n : Nat) (v : List Str)
    {r : TParser} {v' : List Str} (hr : p.fromStream L o n s v = some (r, v')) :
    ∃ r', q.fromStream L o n s' v = some (r', v') ∧ r'.anon = r.anon := by
  unfold TParser.fromStream at hr ⊢
  generalize p.readStream L s = a at *
  generalize q.readStream L s' = b at *
  have h' := filterNonLabels_anon h
  generalize a.filterNonLabels = a at *
  generalize b.filterNonLabels = b at *
  have hd : a.labelsDefined = b.labelsDefined := (congrArg TParser.labelsDefined h' :)
  have key := markLoop_anon o n (o.run .labels (a.labelsDefined.map (·.1))) v h'
  unfold TParser.markLabelUsage at hr ⊢
  rw [← hd]
  cases ha : a.markLoop o n (o.run .labels (a.labelsDefined.map (·.1))) v with
  | none => rw [ha] at hr; cases hr
  | some x =>
    obtain ⟨x, w⟩ := x
    rw [ha] at hr key
    simp only [Option.some.injEq, Prod.mk.injEq] at hr
    obtain ⟨rfl, rfl⟩ := hr
    cases hb : b.markLoop o n (o.run .labels (a.labelsDefined.map (·.1))) v with
    | none => rw [hb] at key; cases key
    | some y =>
      obtain ⟨y, w'⟩ := y
      rw [hb] at key
      simp only [Option.map_some, Option.some.injEq, Prod.mk.injEq] at key
      obtain ⟨k1, rfl⟩ := key
      refine ⟨_, rfl, ?_⟩
      have hl : x.lines.map TLine.anon = y.lines.map TLine.anon := (congrArg TParser.lines k1 :)
      have e : ∀ p : TParser, p.removeUnused.anon = { p.anon with lines := (p.removeLoop {} p.lines).1.map TLine.anon } := fun _ => rfl
      rw [e, e, k1, removeLoop_anon k1 _ _ _ hl]

/-! ### All lines -/

/-- Read a line. -/
def TParser.next (L : Locale) (p : TParser) (l : Str) : TParser := (p.addText l).eol L

theorem addText_anon {p q : TParser} (h : p.anon = q.anon) (l : Str) : (p.addText l).anon = (q.addText l).anon := by
  have e : ∀ p : TParser, (p.addText l).anon = p.anon.addText l := fun _ => rfl
  rw [e, e, h]

theorem basic_of_anon {p q : TParser} (h : p.anon = q.anon) (hl : p.filter.libraryFunctions = false) (hb : Basic p) : Basic q := by
  have h1 : p.st.lastOwnSourceLine = q.st.lastOwnSourceLine := (congrArg (fun p => p.st.lastOwnSourceLine) h :)
  have h2 : p.st.currentFilename = q.st.currentFilename := (congrArg (fun p => p.st.currentFilename) h :)
  have h3 : p.filter = q.filter := (congrArg TParser.filter h :)
  exact ⟨h1 ▸ hb.own, h2 ▸ hb.fname, fun h => by rw [← h3, hl] at h; cases h⟩

theorem fold_anon (L : Locale) (ls : List Str) : ∀ {p q : TParser}, p.anon = q.anon → p.filter.libraryFunctions = false → Basic p →
    (ls.foldl (TParser.next L) p).anon = (ls.foldl (TParser.next L) q).anon := by
  induction ls with
  | nil => intro p q h _ _; exact h
  | cons l ls ih =>
    intro p q h hl hb
    rw [List.foldl_cons, List.foldl_cons]
    have hs := eol_step L (p.addText l) (basic_addText hb l)
    exact ih (eol_same L (addText_anon h l) hl) (by show ((p.addText l).eol L).filter.libraryFunctions = false; rw [hs.filter]; exact hl) hs.basic

theorem block_anon (L : Locale) (ls : List Str) (l : Str) (h1 : ∀ x ∈ ls, occurs b! "*/" x = false) (h2 : occurs b! "*/" l = true) : ∀ {p : TParser},
    p.filter.commentOnly = true → p.filter.libraryFunctions = false → Basic p → p.st.text = [] →
    (p.st.hasStartedCommentBlock = true ∨ ∃ a, (ls ++ [l]).head? = some a ∧ opensComment a = true) →
    ((ls ++ [l]).foldl (TParser.next L) p).anon = (p.inComment false).anon := by
  induction ls with
  | nil =>
    intro p hc hl hb ht hi
    have := eol_block_anon L l hc (hi.imp_right fun ⟨a, h, h'⟩ => by simp at h; rw [h]; exact h') ht
    rw [h2] at this
    exact this
  | cons x ls ih =>
    intro p hc hl hb ht hi
    have hx := eol_block_anon L x hc (hi.imp_right fun ⟨a, h, h'⟩ => by simp at h; rw [h]; exact h') ht
    rw [h1 x (by simp), Bool.not_false] at hx
    have hs := eol_step L (p.addText x) (basic_addText hb x)
    rw [List.cons_append, List.foldl_cons]
    have hb' : Basic (p.inComment true) := basic_of_anon hx (by rw [hs.filter]; exact hl) hs.basic
    have hh := fold_anon L (ls ++ [l]) hx (by show ((p.addText x).eol L).filter.libraryFunctions = false; rw [hs.filter]; exact hl) hs.basic
    refine hh.trans ?_
    exact ih (fun y hy => h1 y (List.mem_cons_of_mem _ hy)) (p := p.inComment true) hc hl hb' ht (.inl rfl)

/-- No keyword of a CUDA function header. -/
def PlainHeader (l : Str) : Prop := ¬ Contains (ink l) b! ".entry" ∧ ¬ Contains (ink l) b! ".func"

theorem textInv_noCuda {L : Locale} {f : Filter} {done : List Str} {p : TParser} (h : TextInv L f done p) (hd : ∀ l ∈ done, PlainHeader l) : p.st.inNvccDef = false := by
  cases hn : p.st.inNvccDef with
  | false => rfl
  | true =>
    exfalso
    obtain ⟨l, hl, k, hk⟩ := h.cuda (.inl hn)
    obtain ⟨a, bs, ret, c, t, h1, -, -, -, -, -, h2⟩ := hk
    rcases h.lines l hl with h3 | h3
    · have e1 : l.text = [] := by have := congrArg TLine.text h3; exact this
      rw [e1] at h2
      have := congrArg List.length h2
      simp at this
    · obtain ⟨n, ws, raw, g1, g2, -, g3, -, -⟩ := h3.raw
      have e : ink l.text = ink raw := by rw [g3]; exact lineText_ink f n g1
      have hc : Contains l.text (b! "." ++ k) := ⟨a, bs ++ ret ++ (c :: t) ++ b! "(", by rw [h2]; simp⟩
      have hmem : k = b! "entry" ∨ k = b! "func" := by simpa using h1
      rcases hmem with rfl | rfl
      · have := contains_ink hc (by unfold Space; decide)
        rw [e] at this
        exact (hd raw g2).1 this
      · have := contains_ink hc (by unfold Space; decide)
        rw [e] at this
        exact (hd raw g2).2 this

theorem quieter_read (L : Locale) {f : Filter} (hlib : f.libraryFunctions = false) {i : Bool} {ls ls' : List Str} (h : Quieter f i ls ls') :
    (f.directives = true → ∀ l ∈ ls, PlainHeader l) → (∀ l ∈ ls, Blanks l → l = []) → ∀ (done : List Str) (p q : TParser), p.filter = f → Basic p →
    TextInv L f done p → (f.directives = true → ∀ l ∈ done, PlainHeader l) → p.st.text = [] → (f.commentOnly = true → p.st.hasStartedCommentBlock = i) →
    p.anon = q.anon → (ls.foldl (TParser.next L) p).anon = (ls'.foldl (TParser.next L) q).anon := by
  induction h with
  | nil => intro _ _ done p q _ _ _ _ _ _ h; exact h
  | @line i l ls ls' _ ih =>
    intro hp hb done p q hf hB hT hd ht hi h
    rw [List.foldl_cons, List.foldl_cons]
    have hs := eol_step L (p.addText l) (basic_addText hB l)
    refine ih (fun h x hx => hp h x (List.mem_cons_of_mem _ hx)) (fun x hx => hb x (List.mem_cons_of_mem _ hx)) (done ++ [l]) _ _ (hs.filter.trans hf) hs.basic
      (textInv_step L f done p l hf hT hs) ?_ ?_ ?_ (eol_same L (addText_anon h l) (by show p.filter.libraryFunctions = false; rw [hf]; exact hlib))
    · intro hdir x hx
      rcases List.mem_append.1 hx with hx | hx
      · exact hd hdir x hx
      · rw [List.mem_singleton.1 hx]; exact hp hdir l (by simp)
    · have e : (p.addText l).st.text = l := by show p.st.text ++ l = l; rw [ht]; rfl
      show ((p.addText l).eol L).st.text = []
      cases hw : isEmptyOrJustWhitespace l with
      | false => exact hs.text (by rw [e]; exact hw)
      | true =>
        rcases hs.carry with h | h
        · exact h
        · rw [h, e]; exact hb l (by simp) (blanks_white.1 hw)
    · intro hc
      show ((p.addText l).eol L).st.hasStartedCommentBlock = _
      rw [hs.block]
      unfold TParser.blockAfter
      rw [show (p.addText l).filter = p.filter from rfl, show (p.addText l).st.text = p.st.text ++ l from rfl,
        show (p.addText l).st.hasStartedCommentBlock = p.st.hasStartedCommentBlock from rfl, hf, hc, hi hc, startCommentBlock_opens, ht, List.nil_append,
        endCommentBlock_occurs]
      cases i <;> cases opensComment l <;> simp
  | @remark l ls ls' hc hr _ ih =>
    intro hp hb done p q hf hB hT hd ht hi h
    have key := ih (fun h x hx => hp h x (List.mem_cons_of_mem _ hx)) (fun x hx => hb x (List.mem_cons_of_mem _ hx)) done p q hf hB hT hd ht hi h
    rw [← key, List.foldl_cons]
    have hl : p.filter.libraryFunctions = false := by rw [hf]; exact hlib
    exact (fold_anon L ls (eol_remark_anon L l (by rw [hf]; exact hc) (hi hc) hl ht hr).symm hl hB).symm
  | @block c ls ls' hc hcb _ ih =>
    intro hp hb done p q hf hB hT hd ht hi h
    have key := ih (fun h x hx => hp h x (List.mem_append_right _ hx)) (fun x hx => hb x (List.mem_append_right _ hx)) done p q hf hB hT hd ht hi h
    rw [← key, List.foldl_append]
    have hl : p.filter.libraryFunctions = false := by rw [hf]; exact hlib
    obtain ⟨xs, x, rfl, h1, h2, h3⟩ := hcb
    have e := block_anon L xs x h2 h3 (by rw [hf]; exact hc) hl hB ht (.inr h1)
    have e' : (p.inComment false).anon = p.anon := by
      refine TParser.anon_ext rfl ?_ rfl rfl rfl rfl rfl
      show TState.plain { p.st with hasStartedCommentBlock := false } = TState.plain p.st
      unfold TState.plain
      rw [hi hc]
    exact (fold_anon L ls (e.trans e').symm hl hB).symm
  | @directive l ls ls' hdir hm _ ih =>
    intro hp hb done p q hf hB hT hd ht hi h
    have key := ih (fun h x hx => hp h x (List.mem_cons_of_mem _ hx)) (fun x hx => hb x (List.mem_cons_of_mem _ hx)) done p q hf hB hT hd ht hi h
    rw [← key, List.foldl_cons]
    have hl : p.filter.libraryFunctions = false := by rw [hf]; exact hlib
    exact (fold_anon L ls (eol_mute L l (by rw [hf]; exact hdir) (by rw [hf]; exact hi) (textInv_noCuda hT (hd hdir)) hl ht (by rw [hf]; exact hm)).symm hl hB).symm

theorem Quieter.mem {f : Filter} {i : Bool} {ls ls' : List Str} (h : Quieter f i ls ls') : ∀ l ∈ ls', l ∈ ls := by
  induction h with
  | nil => intro l h; exact h
  | line _ ih =>
    intro x hx
    rcases List.mem_cons.1 hx with rfl | hx
    · exact List.mem_cons_self
    · exact List.mem_cons_of_mem _ (ih x hx)
  | remark _ _ _ ih => intro x hx; exact List.mem_cons_of_mem _ (ih x hx)
  | block _ _ _ ih => intro x hx; exact List.mem_append_right _ (ih x hx)
  | directive _ _ _ ih => intro x hx; exact List.mem_cons_of_mem _ (ih x hx)

theorem fold_filter (L : Locale) (ls : List Str) : ∀ {p : TParser}, Basic p → (ls.foldl (TParser.next L) p).filter = p.filter := by
  induction ls with
  | nil => intro p _; rfl
  | cons l ls ih =>
    intro p hb
    have hs := eol_step L (p.addText l) (basic_addText hb l)
    rw [List.foldl_cons]
    exact (ih hs.basic).trans hs.filter

theorem flush_anon (L : Locale) {p q : TParser} (h : p.anon = q.anon) (hl : p.filter.libraryFunctions = false) : (p.flush L).anon = (q.flush L).anon := by
  have e : p.st.text = q.st.text := (congrArg (fun p => p.st.text) h :)
  by_cases ht : p.st.text = []
  · rw [flush_nil L p ht, flush_nil L q (e ▸ ht)]; exact h
  · rw [flush_ne L p ht, flush_ne L q (e ▸ ht)]; exact eol_same L h hl

theorem quieter_stream (L : Locale) {f : Filter} (hlib : f.libraryFunctions = false) {ls ls' : List Str} (h : Quieter f false ls ls')
    (h1 : ∀ l ∈ ls, 10 ∉ l) (h2 : f.directives = true → ∀ l ∈ ls, PlainHeader l) (h3 : ∀ l ∈ ls, Blanks l → l = []) :
    ((TParser.init f).readStream L (unlines ls)).anon = ((TParser.init f).readStream L (unlines ls')).anon := by
  rw [readStream_eq, readStream_eq, feed_unlines L ls h1, feed_unlines L ls' fun l hl => h1 l (h.mem l hl)]
  have hT : TextInv L f [] (TParser.init f) :=
    ⟨fun c hc => absurd hc (by simp [TParser.init]), by simp [TParser.init], by simp [TParser.init], ⟨by simp [TParser.init], by simp [TParser.init], by simp [TParser.init], by simp [TParser.init]⟩, trivial, fun _ => rfl⟩
  have key := quieter_read L hlib h h2 h3 [] (TParser.init f) (TParser.init f) rfl ⟨rfl, rfl, fun _ => ⟨rfl, rfl⟩⟩ hT (by intro _ l hl; cases hl) rfl (fun _ => rfl) rfl
  refine flush_anon L key ?_
  show (ls.foldl (TParser.next L) (TParser.init f)).filter.libraryFunctions = false
  rw [fold_filter L ls ⟨rfl, rfl, fun _ => ⟨rfl, rfl⟩⟩]
  exact hlib

/-! ### A simple form of such directives -/

theorem instructs_prefix {t kw arg l : Str} (h : Instructs t kw arg) (he : ink t = ink l) (hk : ink kw = kw) : kw <+: ink l := by
  obtain ⟨bs, bs', h1, -, -, rfl⟩ := h
  refine ⟨ink (bs' ++ arg), ?_⟩
  rw [← he, List.append_assoc, List.append_assoc, ink_append bs, ink_append kw, ink_blanks h1, List.nil_append, hk]

/-- The words at the beginning of a directive that give it a meaning. -/
def spokenWords : List Str := dataDirectives ++ [b! ".file", b! ".loc", b! ".stabn", b! ".dbg", b! ".d2line", b! ".d2file"] ++ symbolDirectives

theorem muteDirective {f : Filter} {l : Str} (h1 : Directive l) (h2 : ∀ c ∈ [c! ':', c! '=', c! '(', c! '}'], c ∉ l)
    (h3 : ∀ kw ∈ spokenWords, ¬ kw <+: ink l)
    (h4 : ∀ w ∈ [b! ".inst", b! ".cfi_startproc", b! ".cfi_endproc", b! ".data", b! ".text", b! ".section"], ¬ Contains (ink l) w) : MuteDirective f l := by
  intro t inl hsh
  have ho : OnlyDirective f l := onlyDirective h1 (fun c hc => h2 c (by simp at hc ⊢; rcases hc with h | h | h <;> simp [h]))
    (fun kw hk => h3 kw (List.mem_append_left _ (List.mem_append_left _ hk))) (h4 _ (by simp))
  have hink : ink t = ink l := by
    obtain ⟨ws, sp, t', g1, g4, g5, -, g6⟩ := hsh
    rw [g6, ink_cleaned]
    have := congrArg ink g4
    rw [ink_append, ink_append, ink_blanks g1, ink_spaces g5] at this
    exact this.symm
  have word : ∀ w ∈ [b! ".inst", b! ".cfi_startproc", b! ".cfi_endproc", b! ".data", b! ".text", b! ".section"], ¬ Contains t w := by
    intro w hw hc
    refine h4 w hw (hink ▸ contains_ink hc ?_)
    simp only [List.mem_cons, List.not_mem_nil, or_false] at hw
    rcases hw with rfl | rfl | rfl | rfl | rfl | rfl <;> (unfold Space; decide)
  have ins : ∀ kw arg, kw ∈ [b! ".file", b! ".loc", b! ".stabn", b! ".dbg", b! ".d2line", b! ".d2file"] → ¬ Instructs t kw arg := by
    intro kw arg hk hi
    refine h3 kw (List.mem_append_left _ (List.mem_append_right _ hk)) (instructs_prefix hi hink ?_)
    have : ∀ kw ∈ [b! ".file", b! ".loc", b! ".stabn", b! ".dbg", b! ".d2line", b! ".d2file"], ink kw = kw := by decide
    exact this kw hk
  refine ⟨ho t inl hsh, ?_, ?_, word _ (by simp), ?_, ?_⟩
  · rintro (⟨i, name, h⟩ | ⟨i, n, c, h, -⟩ | ⟨k, n, h⟩ | h | ⟨n, h⟩ | ⟨name, h⟩)
    · obtain ⟨d, bs, q, a, r, -, -, -, -, -, h, -⟩ := h; exact ins _ _ (by simp) h
    · obtain ⟨a, bs, b, r, -, -, -, -, -, -, h, -⟩ := h; exact ins _ _ (by simp) h
    · obtain ⟨a, b, r, -, -, -, -, h⟩ := h; exact ins _ _ (by simp) h
    · obtain ⟨r, h⟩ := h; exact ins _ _ (by simp) h
    · obtain ⟨a, r, -, -, h⟩ := h; exact ins _ _ (by simp) h
    · exact ins _ _ (by simp) h
  · rintro ⟨w, hw, hc⟩
    refine word w ?_ hc
    simp only [List.mem_cons, List.not_mem_nil, or_false] at hw ⊢
    rcases hw with h | h | h | h <;> simp [h]
  · rintro a ⟨bs, kw, bs', r, g1, g2, g3, -, -, rfl⟩
    refine h3 kw (List.mem_append_right _ g2) ⟨ink (bs' ++ a ++ r), ?_⟩
    have : ∀ kw ∈ symbolDirectives, ink kw = kw := by decide
    rw [← hink]
    simp only [ink_append, ink_blanks g1, List.nil_append, this kw g2, List.append_assoc]
  · intro hm
    have : c! '}' ∈ ink t := List.mem_filter.2 ⟨hm, by decide⟩
    rw [hink] at this
    exact h2 c! '}' (by simp) (List.mem_filter.1 this).1

end AsmParser
