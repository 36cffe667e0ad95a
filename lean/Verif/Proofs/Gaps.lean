/-
Helper lemmas: empty lines of the input have no effect on the other lines in text mode.
-/
import Verif.Proofs.TextInv
import Verif.Proofs.UsageMarks

namespace AsmParser

attribute [local irreducible] Re.search Re.fullMatch

/-! ### Reading -/

/-- Without the owner. -/
def View.plain (v : View) : View := ⟨v.s, none⟩

def TSource.plain (s : TSource) : TSource := { s with file := s.file.plain }

/-- Without allocation number and owners, labels also without source. -/
def TLine.plain (l : TLine) : TLine :=
  { l with id := 0, sect := l.sect.plain, source := if l.isLabel then {} else l.source.plain }

/-- The lines that have a text. -/
def filled (ls : List TLine) : List TLine := (ls.filter fun l => l.text ≠ []).map TLine.plain

def TState.plain (s : TState) : TState :=
  { s with
    mayRemovePreviousLabel := true, currentSourceRef := s.currentSourceRef.plain, previousLabel := s.previousLabel.plain
    previousParentLabel := s.previousParentLabel.plain, previousLabelOnSameAddress := s.previousLabelOnSameAddress.plain
    currentSection := s.currentSection.plain, currentSourceFile := s.currentSourceFile.plain, filteredLines := [] }

/-- Everything except empty lines and the like. -/
def TParser.plain (p : TParser) : TParser :=
  { filter := p.filter, st := p.st.plain, files := p.files, lines := filled p.lines, labelsDefined := p.labelsDefined.map fun e => (e.1, 0)
    usage := p.usage, reproducible := p.reproducible }

@[simp] theorem View.plain_s (v : View) : v.plain.s = v.s := rfl
@[simp] theorem View.plain_plain (v : View) : v.plain.plain = v.plain := rfl
@[simp] theorem View.plain_mk (s : Str) (o : Option Nat) : View.plain ⟨s, o⟩ = ⟨s, none⟩ := rfl
@[simp] theorem TSource.plain_plain (v : TSource) : v.plain.plain = v.plain := rfl
@[simp] theorem TState.plain_plain (v : TState) : v.plain.plain = v.plain := rfl

theorem TLine.plain_plain (l : TLine) : l.plain.plain = l.plain := by
  unfold TLine.plain
  cases h : l.isLabel <;> rfl

theorem filled_append (a b : List TLine) : filled (a ++ b) = filled a ++ filled b := by simp [filled]

theorem filled_filled (a : List TLine) : filled (filled a) = filled a := by
  unfold filled
  rw [List.filter_map, List.map_map, List.filter_filter]
  congr 1
  · funext l; exact l.plain_plain
  · congr 1
    funext l
    show (decide (l.text ≠ []) && decide (l.text ≠ [])) = _
    simp

theorem TParser.plain_plain (p : TParser) : p.plain.plain = p.plain := by
  unfold TParser.plain
  simp [filled_filled]

theorem filled_amend (src : TSource) (ls : List TLine) : filled (amendRev src ls.reverse).reverse = filled ls := by
  have key : ∀ ls, filled (amendRev src ls) = filled ls := by
    intro ls
    have one : ∀ l : TLine, l.isLabel = true → (l.amend src).plain = l.plain := by
      intro l h
      unfold TLine.amend TLine.plain
      simp [h]
    have cons : ∀ (l l' : TLine) ls ls', l.plain = l'.plain → filled ls = filled ls' → filled (l :: ls) = filled (l' :: ls') := by
      intro l l' ls ls' h h'
      have ht : l.text = l'.text := (congrArg TLine.text h :)
      unfold filled at h' ⊢
      rw [List.filter_cons, List.filter_cons, ht]
      split
      · rw [List.map_cons, List.map_cons, h, h']
      · exact h'
    induction ls with
    | nil => rfl
    | cons l ls ih =>
      unfold amendRev
      split
      · rename_i h
        split
        · exact cons _ _ _ _ (one l h) ih
        · exact cons _ _ _ _ (one l h) rfl
      · rfl
  have rev : ∀ ls, filled ls.reverse = (filled ls).reverse := by intro ls; simp [filled]
  rw [rev, key, rev, List.reverse_reverse]

theorem filled_mark (p : TParser) : filled p.markPreviousInternalLabelAsInsideProc.lines = filled p.lines := by
  unfold TParser.markPreviousInternalLabelAsInsideProc
  simp only
  cases h : p.lines.reverse with
  | nil =>
    rw [List.reverse_eq_nil_iff] at h
    rw [h]
  | cons l ls =>
    simp only
    have : p.lines = ls.reverse ++ [l] := by rw [← List.reverse_reverse p.lines, h]; simp
    rw [this, List.reverse_cons, filled_append, filled_append]
    congr 1
    split
    · rename_i h
      have h : l.isLabel = true := by simp at h; exact h.1
      unfold filled
      simp only [List.filter_cons, List.filter_nil]
      split <;> simp [TLine.plain, h]
    · rfl

theorem mark_plain (p : TParser) : p.markPreviousInternalLabelAsInsideProc.plain = p.plain := by
  have := filled_mark p
  unfold TParser.plain
  rw [this]
  rfl

theorem amend_plain (p : TParser) (src : TSource) : (p.amendPreviousLinesWith src).plain = p.plain := by
  unfold TParser.amendPreviousLinesWith TParser.plain
  simp only [filled_amend]

/-- The same lines, up to the allocation number. -/
def TLine.At (i : Nat) (l : TLine) : TLine := { l with id := i }

/-- A step does not depend on what is left out. -/
theorem sources_plain (p : TParser) (ln : TLine) (i : Nat) :
    (p.handleSourceDirectives ln).1.plain = (p.plain.handleSourceDirectives (ln.At i)).1.plain ∧
    (p.handleSourceDirectives ln).2 = (p.plain.handleSourceDirectives (ln.At i)).2 := by
  unfold TParser.handleSourceDirectives
  have e1 : (ln.At i).text = ln.text := rfl
  have e2 : p.plain.st.inNvccCode = p.st.inNvccCode := rfl
  rw [e1, e2]
  split
  · refine ⟨?_, rfl⟩
    show TParser.plain _ = TParser.plain _
    unfold TParser.plain
    simp [filled_filled, TState.plain]
  · unfold TParser.handleFiledef
    cases getFileDef ln.text with
    | some d => exact ⟨by simp [TParser.plain, filled_filled], rfl⟩
    | none =>
      simp only [Option.map_none]
      unfold TParser.handleSource
      by_cases h : (getSourceRef ln.text).1 ≠ 0
      · simp only [if_pos h]
        refine ⟨?_, by trivial⟩
        rw [amend_plain, amend_plain]
        simp [TParser.plain, filled_filled, TState.plain, TSource.plain]
      · simp only [if_neg h]
        unfold TParser.handleStabs
        cases getSourceInfoFromStabs ln.text with
        | some d =>
          simp only [Option.map_some]
          refine ⟨?_, by trivial⟩
          repeat' split
          all_goals simp [TParser.plain, filled_filled, TState.plain]
        | none =>
          simp only [Option.map_none]
          unfold TParser.handle6502
          cases get6502DbgInfo ln.text with
          | some d =>
            simp only [Option.map_some]
            refine ⟨?_, by trivial⟩
            split
            all_goals simp [TParser.plain, filled_filled, TState.plain, TSource.plain]
          | none =>
            simp only [Option.map_none]
            unfold TParser.handleD2
            cases getD2LineInfo ln.text with
            | some d =>
              simp only
              refine ⟨?_, by trivial⟩
              rw [amend_plain, amend_plain]
              simp [TParser.plain, filled_filled, TState.plain, TSource.plain]
            | none =>
              simp only
              cases getD2FileInfo ln.text with
              | some d => exact ⟨by simp [TParser.plain, filled_filled, TState.plain], rfl⟩
              | none => exact ⟨by simp [TParser.plain_plain], rfl⟩

theorem section_plain (p : TParser) (i j : Nat) (t : Str) : (p.handleSection i t).plain = (p.plain.handleSection j t).plain := by
  unfold TParser.handleSection
  split <;> simp [TParser.plain, filled_filled, TState.plain]

theorem filled_one (l : TLine) : filled [l] = if l.text = [] then [] else [l.plain] := by
  unfold filled
  simp only [List.filter_cons, List.filter_nil]
  by_cases h : l.text = [] <;> simp [h]

theorem assoc_keys (k : Str) (v : Nat) (m : List (Str × Nat)) : (assocSet k v m).map (fun e => (e.1, 0)) = assocSet k 0 (m.map fun e => (e.1, 0)) := by
  induction m with
  | nil => rfl
  | cons e m ih =>
    obtain ⟨a, b⟩ := e
    simp only [assocSet, List.map_cons]
    split <;> simp [ih]

theorem aliasing_plain (p : TParser) (ln : TLine) (i : Nat) : (p.handleLabelAliasing ln).plain = (p.plain.handleLabelAliasing (ln.At i)).plain := by
  unfold TParser.handleLabelAliasing
  have e1 : (ln.At i).isLabel = ln.isLabel := rfl
  have e2 : (ln.At i).isAssignment = ln.isAssignment := rfl
  have e3 : (ln.At i).hasOpcode = ln.hasOpcode := rfl
  have e4 : (ln.At i).isData = ln.isData := rfl
  have e5 : (ln.At i).label = ln.label := rfl
  have e6 : p.plain.st.previousLabelOnSameAddress.s = p.st.previousLabelOnSameAddress.s := rfl
  simp only [e1, e2, e3, e4, e5, e6]
  cases ln.isLabel <;> cases ln.isAssignment <;> cases ln.hasOpcode <;> cases ln.isData <;> cases p.st.previousLabelOnSameAddress.s.isEmpty <;>
    simp [TParser.plain, filled_filled, TState.plain]

theorem clear_plain {p q : TParser} (h : p.plain = q.plain) : p.clear.plain = q.clear.plain := by
  have e : ∀ p : TParser, p.clear.plain = p.plain.clear := fun _ => rfl
  rw [e, e, h]

theorem TParser.plain_ext {p q : TParser} (h1 : p.filter = q.filter) (h2 : p.st.plain = q.st.plain) (h3 : p.files = q.files)
    (h4 : filled p.lines = filled q.lines) (h5 : p.labelsDefined.map (fun e => (e.1, 0)) = q.labelsDefined.map fun e => (e.1, 0))
    (h6 : p.usage = q.usage) (h7 : p.reproducible = q.reproducible) : p.plain = q.plain := by
  unfold TParser.plain
  rw [h1, h2, h3, h4, h5, h6, h7]

theorem definition_plain (p : TParser) (ln : TLine) (i : Nat) :
    (p.handleLabelDefinition ln).1.plain = (p.plain.handleLabelDefinition (ln.At i)).1.plain ∧
    (p.plain.handleLabelDefinition (ln.At i)).2 = (p.handleLabelDefinition ln).2.At i := by
  unfold TParser.handleLabelDefinition
  have e1 : (ln.At i).text = ln.text := rfl
  rw [e1]
  cases getLabelFromLine ln.text with
  | none => exact ⟨by simp [TParser.plain_plain], rfl⟩
  | some d =>
    obtain ⟨l, a, c⟩ := d
    refine ⟨?_, rfl⟩
    simp only
    cases isInternalLabel l <;> simp [TParser.plain, filled_filled, TState.plain, assoc_keys]
    all_goals rfl

theorem directive_plain (p : TParser) (i j : Nat) (t : Str) :
    (p.extractUsedLabelsFromDirective i t).plain = (p.plain.extractUsedLabelsFromDirective j t).plain := by
  unfold TParser.extractUsedLabelsFromDirective
  repeat' split
  all_goals simp [TParser.plain, filled_filled, TState.plain]

theorem opcode_plain (L : Locale) (p : TParser) (ln : TLine) (i : Nat) :
    (p.extractUsedLabelsFromOpcodeLine L ln).1.plain = (p.plain.extractUsedLabelsFromOpcodeLine L (ln.At i)).1.plain ∧
    (p.plain.extractUsedLabelsFromOpcodeLine L (ln.At i)).2 = (p.extractUsedLabelsFromOpcodeLine L ln).2.At i := by
  refine ⟨?_, rfl⟩
  exact TParser.plain_ext rfl rfl rfl (filled_filled _).symm (by simp [TParser.plain, TParser.extractUsedLabelsFromOpcodeLine]) rfl rfl

theorem data_plain (L : Locale) (p : TParser) (ln : TLine) (i : Nat) :
    (p.extractUsedLabelsFromDataLine L ln).1.plain = (p.plain.extractUsedLabelsFromDataLine L (ln.At i)).1.plain ∧
    (p.plain.extractUsedLabelsFromDataLine L (ln.At i)).2 = (p.extractUsedLabelsFromDataLine L ln).2.At i := by
  refine ⟨?_, rfl⟩
  exact TParser.plain_ext rfl rfl rfl (filled_filled _).symm (by simp [TParser.plain, TParser.extractUsedLabelsFromDataLine]) rfl rfl

/-- What `eolFinish` does at its end. -/
def TParser.push (p : TParser) (ln : TLine) : TParser :=
  let ln := { ln with
    closestParentLabel :=
      if ln.isAssignment || ln.label == p.st.previousParentLabel.s then []
      else p.st.previousParentLabel.s
    source := p.st.currentSourceRef
    sect := p.st.currentSection }
  let p := p.handleLabelAliasing ln
  { p with lines := p.lines ++ [ln], stored := p.st.previousParentLabel.own :: p.stored }.clear

theorem TLine.plain_of {a b : TLine} (h : b.isLabel = a.isLabel) (h1 : { b with id := 0, sect := a.sect, source := a.source } = { a with id := 0 })
    (h2 : b.sect.plain = a.sect.plain) (h3 : b.source.plain = a.source.plain) : a.plain = b.plain := by
  cases a; cases b
  simp only [TLine.mk.injEq] at h1
  simp only at h h2 h3
  simp [TLine.plain, h, h2, h3, h1]

theorem append_plain {p q : TParser} (h : p.plain = q.plain) {a b : TLine} (hab : a.plain = b.plain) (x y : List (Option Nat)) :
    TParser.plain { p with lines := p.lines ++ [a], stored := x } = TParser.plain { q with lines := q.lines ++ [b], stored := y } := by
  have ht : a.text = b.text := (congrArg TLine.text hab :)
  have e : ∀ (p : TParser) (a : TLine) x, TParser.plain { p with lines := p.lines ++ [a], stored := x } =
      { p.plain with lines := p.plain.lines ++ filled [a] } := by
    intro p a x
    simp [TParser.plain, filled_append]
  rw [e, e, h, filled_one, filled_one, ht, hab]

theorem push_plain {p q : TParser} (h : p.plain = q.plain) (ln : TLine) (i : Nat) : (p.push ln).plain = (q.push (ln.At i)).plain := by
  unfold TParser.push
  have k1 : p.st.previousParentLabel.s = q.st.previousParentLabel.s := (congrArg (fun p => p.st.previousParentLabel.s) h :)
  have k2 : p.st.currentSourceRef.plain = q.st.currentSourceRef.plain := (congrArg (fun p => p.st.currentSourceRef) h :)
  have k3 : p.st.currentSection.plain = q.st.currentSection.plain := (congrArg (fun p => p.st.currentSection) h :)
  refine clear_plain (append_plain ?_ ?_ _ _)
  · rw [aliasing_plain p _ 0, aliasing_plain q _ 0, h]
    have : ∀ (p : TParser) (a b : TLine), b.label = a.label → b.isLabel = a.isLabel → b.isAssignment = a.isAssignment → b.hasOpcode = a.hasOpcode →
        b.isData = a.isData → b.id = a.id → p.handleLabelAliasing a = p.handleLabelAliasing b := by
      intro p a b h1 h2 h3 h4 h5 h6
      unfold TParser.handleLabelAliasing
      rw [h1, h2, h3, h4, h5, h6]
    refine congrArg TParser.plain (this q.plain _ _ ?_ ?_ ?_ ?_ ?_ ?_) <;> rfl
  · refine TLine.plain_of rfl ?_ k3.symm k2.symm
    simp [TLine.At, k1]

/-- What `eolFinish` does at its beginning. -/
def TParser.prep (p : TParser) (ln : TLine) : TLine :=
  { ln with
    isInlineAsm := decide (p.st.inCustomAssembly > 0)
    hasOpcode := hasOpcode ln.text p.st.inNvccCode
    labels := [] }

def TParser.ops (L : Locale) (r : TParser × TLine) : TParser × TLine :=
  if !r.2.isLabel && r.2.hasOpcode then r.1.extractUsedLabelsFromOpcodeLine L r.2 else r

def TParser.datas (L : Locale) (r : TParser × TLine) : TParser × TLine :=
  if !r.2.isLabel && r.2.isData then r.1.extractUsedLabelsFromDataLine L r.2 else r

theorem finish_push (L : Locale) (p : TParser) (ln : TLine) : p.eolFinish L ln =
    (TParser.datas L (TParser.ops L (p, p.prep ln))).1.push (TParser.datas L (TParser.ops L (p, p.prep ln))).2 := rfl

/-- The same up to what is left out. -/
structure Peer (i : Nat) (r r' : TParser × TLine) : Prop where
  plain : r.1.plain = r'.1.plain
  line : r'.2 = r.2.At i

theorem ops_peer (L : Locale) {i : Nat} {r r' : TParser × TLine} (h : Peer i r r') : Peer i (TParser.ops L r) (TParser.ops L r') := by
  obtain ⟨p, a⟩ := r
  obtain ⟨q, b⟩ := r'
  obtain ⟨h1, h2⟩ := h
  have h1 : p.plain = q.plain := h1
  have h2 : b = a.At i := h2
  subst h2
  unfold TParser.ops
  have f1 : (a.At i).isLabel = a.isLabel := rfl
  have f2 : (a.At i).hasOpcode = a.hasOpcode := rfl
  rw [f1, f2]
  split
  · refine ⟨?_, rfl⟩
    rw [(opcode_plain L p a i).1, h1, (opcode_plain L q (a.At i) i).1]
    rfl
  · exact ⟨h1, rfl⟩

theorem datas_peer (L : Locale) {i : Nat} {r r' : TParser × TLine} (h : Peer i r r') : Peer i (TParser.datas L r) (TParser.datas L r') := by
  obtain ⟨p, a⟩ := r
  obtain ⟨q, b⟩ := r'
  obtain ⟨h1, h2⟩ := h
  have h1 : p.plain = q.plain := h1
  have h2 : b = a.At i := h2
  subst h2
  unfold TParser.datas
  have f1 : (a.At i).isLabel = a.isLabel := rfl
  have f2 : (a.At i).isData = a.isData := rfl
  rw [f1, f2]
  split
  · refine ⟨?_, rfl⟩
    rw [(data_plain L p a i).1, h1, (data_plain L q (a.At i) i).1]
    rfl
  · exact ⟨h1, rfl⟩

theorem finish_congr (L : Locale) {p q : TParser} (h : p.plain = q.plain) (ln : TLine) (i : Nat) :
    (p.eolFinish L ln).plain = (q.eolFinish L (ln.At i)).plain := by
  have e4 : p.st.inCustomAssembly = q.st.inCustomAssembly := (congrArg (fun p => p.st.inCustomAssembly) h :)
  have e5 : p.st.inNvccCode = q.st.inNvccCode := (congrArg (fun p => p.st.inNvccCode) h :)
  rw [finish_push, finish_push]
  have hp : Peer i (p, p.prep ln) (q, q.prep (ln.At i)) := ⟨h, by unfold TParser.prep TLine.At; rw [e4, e5]⟩
  have := datas_peer L (ops_peer L hp)
  rw [this.line]
  exact push_plain this.plain _ i

/-- A directive. -/
def TParser.dirStep (L : Locale) (p : TParser) (ln : TLine) : TParser :=
  if ln.isDirective && !isInstOpcode ln.text then
    let p := p.extractUsedLabelsFromDirective ln.id ln.text
    if p.filter.directives then
      { p with st := { p.st with filteredLines := p.st.filteredLines ++ [ln] } }.clear
    else p.eolFinish L ln
  else p.eolFinish L ln

theorem dirStep_congr (L : Locale) {p q : TParser} (h : p.plain = q.plain) (l : TLine) (i : Nat) :
    (p.dirStep L l).plain = (q.dirStep L (l.At i)).plain := by
  have f1 : (l.At i).text = l.text := rfl
  have f2 : (l.At i).isDirective = l.isDirective := rfl
  unfold TParser.dirStep
  rw [f1, f2]
  split
  · have hd : (p.extractUsedLabelsFromDirective l.id l.text).plain = (q.extractUsedLabelsFromDirective (l.At i).id l.text).plain := by
      rw [directive_plain p _ 0, directive_plain q _ 0, h]
    have hf : (p.extractUsedLabelsFromDirective l.id l.text).filter = (q.extractUsedLabelsFromDirective (l.At i).id l.text).filter :=
      (congrArg TParser.filter hd :)
    generalize p.extractUsedLabelsFromDirective l.id l.text = p1 at *
    generalize q.extractUsedLabelsFromDirective (l.At i).id l.text = q1 at *
    by_cases hx : q1.filter.directives = true
    · simp only [hf, hx, if_true]
      refine clear_plain (Eq.trans (Eq.trans ?_ hd) ?_)
      · rw [← hf]; rfl
      · rfl
    · simp only [hf, hx]
      exact finish_congr L hd l i
  · exact finish_congr L h l i

theorem eolDirective_congr (L : Locale) {p q : TParser} (h : p.plain = q.plain) (ln : TLine) (i : Nat) (b : Bool) :
    (p.eolDirective L ln b).plain = (q.eolDirective L (ln.At i) b).plain := by
  have e1 : (ln.At i).text = ln.text := rfl
  have e2 : (ln.At i).isLabel = ln.isLabel := rfl
  have e3 : (ln.At i).isData = ln.isData := rfl
  have e4 : p.st.inNvccDef = q.st.inNvccDef := (congrArg (fun p => p.st.inNvccDef) h :)
  have eq : ∀ (p : TParser) (ln : TLine), p.eolDirective L ln b = if p.st.inNvccDef then
    (if isCudaEndDef ln.text then { p with st := { p.st with inNvccDef := false } } else p).eolFinish L ln
  else if !ln.isLabel && !ln.isData then p.dirStep L (if b then ln else { ln with isDirective := isDirective ln.text })
  else p.eolFinish L ln := fun _ _ => rfl
  rw [eq, eq, e1, e2, e3, e4]
  split
  · refine finish_congr L ?_ ln i
    split
    · have e : ∀ p : TParser, TParser.plain { p with st := { p.st with inNvccDef := false } } = { p.plain with st := { p.plain.st with inNvccDef := false } } := fun _ => rfl
      rw [e, e, h]
    · exact h
  split
  · cases b
    · exact dirStep_congr L h { ln with isDirective := isDirective ln.text } i
    · exact dirStep_congr L h ln i
  · exact finish_congr L h ln i

theorem eolLabel_congr (L : Locale) {p q : TParser} (h : p.plain = q.plain) (ln : TLine) (i : Nat) (b : Bool) :
    (p.eolLabel L ln b).plain = (q.eolLabel L (ln.At i) b).plain := by
  unfold TParser.eolLabel
  split
  · exact eolDirective_congr L h { ln with isData := false, isDirective := true, isLabel := false, isInternalLabel := false } i b
  · simp only
    have d1 := definition_plain p ln i
    have d2 := definition_plain q (ln.At i) i
    have e : (q.handleLabelDefinition (ln.At i)).2 = (p.handleLabelDefinition ln).2.At i := by
      unfold TParser.handleLabelDefinition
      have e1 : (ln.At i).text = ln.text := rfl
      rw [e1]
      cases getLabelFromLine ln.text with
      | none => rfl
      | some d => rfl
    rw [e]
    exact eolDirective_congr L (d1.1.trans (by rw [h]; exact d2.1.symm)) { (p.handleLabelDefinition ln).2 with isData := isDataDefn ln.text, isDirective := false } i b

theorem eolComment_congr (L : Locale) {p q : TParser} (h : p.plain = q.plain) (ln : TLine) (i : Nat) (raw : Str) (b : Bool) :
    (p.eolComment L ln raw b).plain = (q.eolComment L (ln.At i) raw b).plain := by
  have e4 : p.st.inNvccCode = q.st.inNvccCode := (congrArg (fun p => p.st.inNvccCode) h :)
  have e5 : p.filter = q.filter := (congrArg TParser.filter h :)
  unfold TParser.eolComment
  rw [e4, e5]
  split
  · exact clear_plain h
  · exact eolLabel_congr L h ln i b

theorem eolLibrary_congr (L : Locale) {p q : TParser} (h : p.plain = q.plain) (hl : p.filter.libraryFunctions = false) (ln : TLine) (i : Nat) (raw : Str) (b : Bool) :
    (p.eolLibrary L ln raw b).plain = (q.eolLibrary L (ln.At i) raw b).plain := by
  have e5 : p.filter = q.filter := (congrArg TParser.filter h :)
  unfold TParser.eolLibrary
  rw [if_neg (by rw [hl]; simp), if_neg (by rw [← e5, hl]; simp)]
  exact eolComment_congr L (p := { p with st := { p.st with mayRemovePreviousLabel := true } }) (q := { q with st := { q.st with mayRemovePreviousLabel := true } }) h ln i raw b

theorem eolSource_congr (L : Locale) {p q : TParser} (h : p.plain = q.plain) (hl : p.filter.libraryFunctions = false) (ln : TLine) (i : Nat) (raw : Str) :
    (p.eolSource L ln raw).plain = (q.eolSource L (ln.At i) raw).plain := by
  have s1 := sources_plain p ln i
  have s2 := sources_plain q (ln.At i) i
  have e1 : (p.handleSourceDirectives ln).1.plain = (q.handleSourceDirectives (ln.At i)).1.plain := by rw [s1.1, h, s2.1]; rfl
  have e2 : (q.handleSourceDirectives (ln.At i)).2 = (p.handleSourceDirectives ln).2 := by rw [s1.2, h, s2.2]; rfl
  unfold TParser.eolSource
  simp only [e2]
  have e3 : (if (!(p.handleSourceDirectives ln).2) = true then (p.handleSourceDirectives ln).1.handleSection ln.id ln.text else (p.handleSourceDirectives ln).1).plain =
      (if (!(p.handleSourceDirectives ln).2) = true then (q.handleSourceDirectives (ln.At i)).1.handleSection (ln.At i).id (ln.At i).text
        else (q.handleSourceDirectives (ln.At i)).1).plain := by
    split
    · rw [section_plain _ _ 0, section_plain (q.handleSourceDirectives (ln.At i)).1 _ 0, e1]; rfl
    · exact e1
  refine eolLibrary_congr L e3 ?_ ln i raw _
  have : ∀ r : TParser, (r.plain).filter = r.filter := fun _ => rfl
  rw [← this, e3, this]
  have k : ∀ (r : TParser) j t, (r.handleSection j t).filter = r.filter := by
    intro r j t; unfold TParser.handleSection; split <;> rfl
  have k2 : (q.handleSourceDirectives (ln.At i)).1.filter = q.filter := by
    unfold TParser.handleSourceDirectives TParser.handleFiledef TParser.handleSource TParser.handleStabs TParser.handle6502 TParser.handleD2
    cases getFileDef (ln.At i).text <;> cases getSourceInfoFromStabs (ln.At i).text <;> cases get6502DbgInfo (ln.At i).text <;>
      cases getD2LineInfo (ln.At i).text <;> cases getD2FileInfo (ln.At i).text <;> by_cases hs : (getSourceRef (ln.At i).text).1 = 0 <;>
      simp only [hs, Option.map_some, Option.map_none, ne_eq, not_true_eq_false, not_false_eq_true, if_true, if_false]
    all_goals
      repeat' split
      all_goals rfl
  have hq : q.filter = p.filter := (congrArg TParser.filter h.symm :)
  split <;> simp [k, k2, hq, hl]

/-- `eolBody` after the nesting is known. -/
def TParser.body2 (L : Locale) (p : TParser) (t raw : Str) (i : Nat) : TParser :=
  if startProcBlock t && p.st.currentSourceRef.line == 0 then
    if p.markPreviousInternalLabelAsInsideProc.filter.directives then p.markPreviousInternalLabelAsInsideProc.clear
    else p.markPreviousInternalLabelAsInsideProc.eolSource L { id := i, text := t } raw
  else p.eolSource L { id := i, text := t } raw

theorem body2_congr (L : Locale) {p q : TParser} (h : p.plain = q.plain) (hl : p.filter.libraryFunctions = false) (t raw : Str) (i j : Nat) :
    (p.body2 L t raw i).plain = (q.body2 L t raw j).plain := by
  have e4 : p.st.currentSourceRef.line = q.st.currentSourceRef.line := (congrArg (fun p => p.st.currentSourceRef.line) h :)
  unfold TParser.body2
  rw [e4]
  split
  · have hm : p.markPreviousInternalLabelAsInsideProc.plain = q.markPreviousInternalLabelAsInsideProc.plain := by rw [mark_plain, mark_plain, h]
    have g1 : p.markPreviousInternalLabelAsInsideProc.filter = q.markPreviousInternalLabelAsInsideProc.filter := (congrArg TParser.filter hm :)
    have g2 : p.markPreviousInternalLabelAsInsideProc.filter.libraryFunctions = false := hl
    rw [g1]
    split
    · exact clear_plain hm
    · exact eolSource_congr L hm g2 { id := i, text := t } j _
  · exact eolSource_congr L h hl { id := i, text := t } j _

/-- In inline assembly? -/
def TParser.nest (p : TParser) (n : Int) : TParser := { p with st := { p.st with inCustomAssembly := n } }

theorem eolBody_congr (L : Locale) {p q : TParser} (h : p.plain = q.plain) (hl : p.filter.libraryFunctions = false) (i j : Nat) :
    (p.eolBody L i).plain = (q.eolBody L j).plain := by
  have e1 : p.st.text = q.st.text := (congrArg (fun p => p.st.text) h :)
  have e2 : p.st.inCustomAssembly = q.st.inCustomAssembly := (congrArg (fun p => p.st.inCustomAssembly) h :)
  have e3 : p.filter = q.filter := (congrArg TParser.filter h :)
  have eq : ∀ (p : TParser) i, p.eolBody L i = (p.nest (nesting p.st.inCustomAssembly p.st.text)).body2 L
    (lineText p.filter (nesting p.st.inCustomAssembly p.st.text) p.st.text) p.st.text i := fun _ _ => rfl
  rw [eq, eq, e1, e2, e3]
  generalize nesting q.st.inCustomAssembly q.st.text = n
  refine body2_congr L (p := p.nest n) (q := q.nest n) ?_ hl _ _ i j
  have e : ∀ (p : TParser) n, (p.nest n).plain = p.plain.nest n := fun _ _ => rfl
  rw [e, e, h]

theorem maybeAddBlank_plain (p : TParser) (i : Nat) : (p.maybeAddBlank i).plain = p.plain := by
  unfold TParser.maybeAddBlank
  split
  · rfl
  · split
    · rfl
    · refine TParser.plain_ext rfl rfl rfl ?_ rfl rfl rfl
      show filled (p.lines ++ [_]) = _
      rw [filled_append, filled_one]
      simp

/-- In a block comment? -/
def TParser.inComment (p : TParser) (b : Bool) : TParser := { p with st := { p.st with hasStartedCommentBlock := b } }

/-- `eol` after the line has been counted. -/
def TParser.eol2 (L : Locale) (p : TParser) (i : Nat) : TParser :=
  if p.filter.commentOnly && (p.st.hasStartedCommentBlock || startCommentBlock p.st.text) then
    (p.inComment (!endCommentBlock p.st.text)).clear
  else if isEmptyOrJustWhitespace p.st.text then p.maybeAddBlank (i + 1)
  else p.eolBody L i

theorem eol2_congr (L : Locale) {p q : TParser} (h : p.plain = q.plain) (hl : p.filter.libraryFunctions = false) (i j : Nat) :
    (p.eol2 L i).plain = (q.eol2 L j).plain := by
  have e1 : p.st.text = q.st.text := (congrArg (fun p => p.st.text) h :)
  have e2 : p.st.hasStartedCommentBlock = q.st.hasStartedCommentBlock := (congrArg (fun p => p.st.hasStartedCommentBlock) h :)
  have e3 : p.filter = q.filter := (congrArg TParser.filter h :)
  have c1 : (p.filter.commentOnly && (p.st.hasStartedCommentBlock || startCommentBlock p.st.text)) =
    (q.filter.commentOnly && (q.st.hasStartedCommentBlock || startCommentBlock q.st.text)) := by rw [e1, e2, e3]
  have c2 : isEmptyOrJustWhitespace p.st.text = isEmptyOrJustWhitespace q.st.text := by rw [e1]
  by_cases h1 : (p.filter.commentOnly && (p.st.hasStartedCommentBlock || startCommentBlock p.st.text)) = true
  · have h1' := c1.symm.trans h1
    unfold TParser.eol2
    rw [if_pos h1, if_pos h1']
    refine clear_plain ?_
    have e : ∀ (p : TParser) b, (p.inComment b).plain = p.plain.inComment b := fun _ _ => rfl
    rw [e, e, h, e1]
  · have h1' := h1
    rw [c1] at h1'
    by_cases h2 : isEmptyOrJustWhitespace p.st.text = true
    · have h2' := c2.symm.trans h2
      unfold TParser.eol2
      rw [if_neg h1, if_neg h1', if_pos h2, if_pos h2', maybeAddBlank_plain, maybeAddBlank_plain, h]
    · have h2' := h2
      rw [c2] at h2'
      unfold TParser.eol2
      rw [if_neg h1, if_neg h1', if_neg h2, if_neg h2']
      exact eolBody_congr L h hl _ _

/-- Count a line. -/
def TParser.count (p : TParser) : TParser := { p with totalLines := p.totalLines + 1, nextId := p.nextId + 2 }

theorem eol_congr (L : Locale) {p q : TParser} (h : p.plain = q.plain) (hl : p.filter.libraryFunctions = false) : (p.eol L).plain = (q.eol L).plain := by
  have eq : ∀ p : TParser, p.eol L = p.count.eol2 L p.nextId := fun _ => rfl
  rw [eq, eq]
  exact eol2_congr L (p := p.count) (q := q.count) h hl _ _

/-- The beginning of a line has been read, or nothing of it. -/
structure Calm (p : TParser) : Prop where
  basic : Basic p
  blanks : Blanks p.st.text
  block : p.filter.commentOnly = true → p.st.hasStartedCommentBlock = true → p.st.text = []

theorem Calm.congr {p q : TParser} (h : p.plain = q.plain) (hl : p.filter.libraryFunctions = false) (hc : Calm p) : Calm q := by
  have e1 : p.st.text = q.st.text := (congrArg (fun p => p.st.text) h :)
  have e2 : p.st.hasStartedCommentBlock = q.st.hasStartedCommentBlock := (congrArg (fun p => p.st.hasStartedCommentBlock) h :)
  have e3 : p.filter = q.filter := (congrArg TParser.filter h :)
  have e4 : p.st.lastOwnSourceLine = q.st.lastOwnSourceLine := (congrArg (fun p => p.st.lastOwnSourceLine) h :)
  have e5 : p.st.currentFilename = q.st.currentFilename := (congrArg (fun p => p.st.currentFilename) h :)
  refine ⟨⟨by rw [← e4]; exact hc.basic.own, by rw [← e5]; exact hc.basic.fname, fun hx => ?_⟩, by rw [← e1]; exact hc.blanks, by rw [← e1, ← e2, ← e3]; exact hc.block⟩
  rw [← e3, hl] at hx; cases hx

theorem Calm.eol (L : Locale) {p : TParser} (hp : Basic p) : Calm (p.eol L) := by
  have hs := eol_step L p hp
  refine ⟨hs.basic, ?_, ?_⟩
  · cases hw : isEmptyOrJustWhitespace p.st.text with
    | false => rw [hs.text hw]; intro c hc; cases hc
    | true =>
      rcases hs.carry with e | e
      · rw [e]; intro c hc; cases hc
      · rw [e]; exact blanks_white.1 hw
  · intro h1 h2
    cases hw : isEmptyOrJustWhitespace p.st.text with
    | false => exact hs.text hw
    | true =>
      rw [hs.filter] at h1
      unfold TParser.eol at h2 ⊢
      simp only at h2 ⊢
      split
      · rfl
      · rename_i hx
        rw [if_neg hx, if_pos hw] at h2
        exfalso
        have e : ∀ (p : TParser) i, (p.maybeAddBlank i).st = p.st := by
          intro p i
          unfold TParser.maybeAddBlank
          repeat' split
          all_goals rfl
        rw [e] at h2
        refine hx ?_
        have h2 : p.st.hasStartedCommentBlock = true := h2
        have h1 : p.filter.commentOnly = true := h1
        show (p.filter.commentOnly && (p.st.hasStartedCommentBlock || _)) = true
        rw [h1, h2]; rfl

/-- An empty line. -/
theorem eol_empty (L : Locale) {p : TParser} (hc : Calm p) : (p.eol L).plain = p.plain := by
  have hw : isEmptyOrJustWhitespace p.st.text = true := blanks_white.2 hc.blanks
  unfold TParser.eol
  simp only
  split
  · rename_i hx
    have hx : (p.filter.commentOnly && (p.st.hasStartedCommentBlock || startCommentBlock p.st.text)) = true := hx
    rw [Bool.and_eq_true] at hx
    have hns : startCommentBlock p.st.text = false := by
      cases h : startCommentBlock p.st.text with
      | false => rfl
      | true =>
        obtain ⟨b, r, g1, g2⟩ := (startCommentBlock_iff _).1 h
        have := hc.blanks c! '/' (by rw [g2]; simp)
        exact absurd this (by decide)
    have h1 : p.st.hasStartedCommentBlock = true := by
      have := hx.2
      rw [hns, Bool.or_false] at this
      exact this
    have ht := hc.block hx.1 h1
    have he : endCommentBlock p.st.text = false := by
      rw [ht, ← Bool.not_eq_true, endCommentBlock_iff]
      rintro ⟨a, b, e⟩
      simp at e
    refine TParser.plain_ext rfl ?_ rfl rfl rfl rfl rfl
    show TState.plain { p.st with hasStartedCommentBlock := !endCommentBlock p.st.text, text := [] } = p.st.plain
    rw [he]
    have : ({ p.st with hasStartedCommentBlock := !false, text := [] } : TState) = p.st := by
      cases hp : p.st
      rw [hp] at h1 ht
      simp only at h1 ht
      rw [h1, ht]
      rfl
    rw [this]
  · first
    | rw [maybeAddBlank_plain]
      rfl
    | rw [if_pos hw, maybeAddBlank_plain]
      rfl

/-- Reading lines. -/
def TParser.reads (L : Locale) (p : TParser) (ls : List Str) : TParser := ls.foldl (fun q l => (q.addText l).eol L) p

theorem addText_plain {p q : TParser} (h : p.plain = q.plain) (l : Str) : (p.addText l).plain = (q.addText l).plain := by
  have e : ∀ p : TParser, (p.addText l).plain = p.plain.addText l := fun _ => rfl
  rw [e, e, h]

theorem reads_filled (L : Locale) (ls : List Str) : ∀ p q : TParser, p.plain = q.plain → p.filter.libraryFunctions = false → Calm p →
    (p.reads L ls).plain = (q.reads L (ls.filter (· ≠ []))).plain := by
  induction ls with
  | nil => intro p q h _ _; exact h
  | cons l ls ih =>
    intro p q h hl hc
    have hc' := hc.congr h hl
    have hf : ((p.addText l).eol L).filter.libraryFunctions = false := by
      rw [(eol_step L _ (basic_addText hc.basic l)).filter]; exact hl
    by_cases hx : l = []
    · subst hx
      rw [List.filter_cons, if_neg (by simp)]
      refine ih _ q ?_ hf (Calm.eol L (basic_addText hc.basic []))
      show ((p.addText []).eol L).plain = q.plain
      rw [addText_nil, eol_empty L hc, h]
    · rw [List.filter_cons, if_pos (by simpa using hx)]
      exact ih _ _ (eol_congr L (addText_plain h l) hl) hf (Calm.eol L (basic_addText hc.basic l))

theorem readStream_reads (L : Locale) (f : Filter) (s : Str) : ∃ e, (e = [] ∨ e = [[]]) ∧
    (TParser.init f).readStream L s = (TParser.init f).reads L (inputLines s ++ e) := by
  have := readFrom L (fun done p => p = (TParser.init f).reads L done) (by
    intro done p l _ h
    subst h
    unfold TParser.reads
    rw [List.foldl_append]
    rfl) s [] (by simp) [] (TParser.init f) rfl
  obtain ⟨e, h1, h2⟩ := this
  refine ⟨e, h1.imp_right (·.1), ?_⟩
  rw [addText_nil] at h2
  exact h2

/-- What is read does not depend on empty lines. -/
theorem readStream_plain (L : Locale) {f : Filter} (hl : f.libraryFunctions = false) {s s' : Str}
    (h : (inputLines s).filter (· ≠ []) = (inputLines s').filter (· ≠ [])) :
    ((TParser.init f).readStream L s).plain = ((TParser.init f).readStream L s').plain := by
  have key : ∀ s, ((TParser.init f).readStream L s).plain = ((TParser.init f).reads L ((inputLines s).filter (· ≠ []))).plain := by
    intro s
    obtain ⟨e, he, h⟩ := readStream_reads L f s
    rw [h, reads_filled L _ (TParser.init f) (TParser.init f) rfl hl ⟨⟨rfl, rfl, fun _ => ⟨rfl, rfl⟩⟩, (fun c hc => by cases hc), fun _ _ => rfl⟩]
    congr 2
    rw [List.filter_append]
    rcases he with rfl | rfl <;> simp
  rw [key, key, h]

/-! ### Marking -/

/-- Change the last line that satisfies `P`. -/
def updLast (P : TLine → Bool) (g : TLine → TLine) : List TLine → List TLine
  | [] => []
  | l :: ls => if ls.any P then l :: updLast P g ls else if P l then g l :: ls else l :: ls

theorem set_updLast {P : TLine → Bool} (g : TLine → TLine) (ls : List TLine) : ∀ {i : Nat} {l : TLine}, ls[i]? = some l → P l = true →
    (∀ (j : Nat) x, ls[j]? = some x → P x = true → j ≤ i) → ls.set i (g l) = updLast P g ls := by
  induction ls with
  | nil => intro i l h; simp at h
  | cons a ls ih =>
    intro i l h hP hlast
    cases i with
    | zero =>
      simp only [List.getElem?_cons_zero, Option.some.injEq] at h
      subst h
      have hn : ls.any P = false := by
        rw [List.any_eq_false]
        intro x hx hPx
        obtain ⟨j, hj⟩ := List.getElem?_of_mem hx
        have := hlast (j + 1) x (by simpa using hj) hPx
        omega
      unfold updLast
      rw [hn, hP]
      rfl
    | succ i =>
      rw [List.getElem?_cons_succ] at h
      have hy : ls.any P = true := List.any_eq_true.2 ⟨l, List.mem_of_getElem? h, hP⟩
      unfold updLast
      rw [hy, List.set_cons_succ, ih h hP fun j x hj hx => by have := hlast (j + 1) x (by simpa using hj) hx; omega]
      rfl

theorem any_filled {P : TLine → Bool} (h0 : ∀ l, P l.plain = P l) (ls : List TLine) (h1 : ∀ l ∈ ls, l.text = [] → P l = false) : (filled ls).any P = ls.any P := by
  induction ls with
  | nil => rfl
  | cons l ls ih =>
    have ih := ih fun x hx => h1 x (List.mem_cons_of_mem _ hx)
    rw [show l :: ls = [l] ++ ls from rfl, filled_append, List.any_append, List.any_append, ih, filled_one]
    split
    · rename_i h
      have := h1 l (by simp) h
      simp [this]
    · simp [h0]

theorem filled_updLast {P : TLine → Bool} {g : TLine → TLine} (h0 : ∀ l, P l.plain = P l) (hg : ∀ l, (g l).plain = g l.plain) (hg' : ∀ l, (g l).text = l.text)
    (ls : List TLine) (h1 : ∀ l ∈ ls, l.text = [] → P l = false) : filled (updLast P g ls) = updLast P g (filled ls) := by
  induction ls with
  | nil => rfl
  | cons l ls ih =>
    have h1' : ∀ x ∈ ls, x.text = [] → P x = false := fun x hx => h1 x (List.mem_cons_of_mem _ hx)
    have ih := ih h1'
    have cons : ∀ (l : TLine) ls, filled (l :: ls) = if l.text = [] then filled ls else l.plain :: filled ls := by
      intro l ls
      rw [show l :: ls = [l] ++ ls from rfl, filled_append, filled_one]
      split <;> rfl
    unfold updLast
    by_cases ht : l.text = []
    · have hP := h1 l (by simp) ht
      rw [hP, cons, if_pos ht]
      have ha := any_filled h0 ls h1'
      split
      · rw [cons, if_pos ht, ih]
        cases hf : filled ls <;> rfl
      · rename_i hn
        rw [if_neg (by simp), cons, if_pos ht]
        rw [Bool.not_eq_true] at hn
        rw [hn] at ha
        cases hf : filled ls with
        | nil => rfl
        | cons a as =>
          rw [hf] at ha
          rw [List.any_cons, Bool.or_eq_false_iff] at ha
          simp only
          rw [ha.2, ha.1]
          rfl
    · rw [cons, if_neg ht]
      simp only
      rw [any_filled h0 ls h1', h0]
      split
      · rw [cons, if_neg ht, ih]
      · split
        · rw [cons, hg', if_neg ht, hg]
        · rw [cons, if_neg ht]

/-- The flag that `markLine` sets. -/
inductive Mark where
  | used | data | alias | none

def Mark.set : Mark → TLine → TLine
  | .used, l => { l with isUsed := true }
  | .data, l => { l with isUsedDataThroughAlias := true }
  | .alias, l => { l with isUsedThroughAlias := true }
  | .none, l => l

/-- What `markLine` finds out about a label. -/
def verdict (g : Usage) (o : Order) (fuel : Nat) (label : Str) (vis : List Str) : Option (Mark × List Str) :=
  match isUsed g o fuel label 1 vis with
  | none => none
  | some (true, vis) => some (.used, vis)
  | some (false, vis) =>
    match isDataUsedThroughAlias g o fuel label vis with
    | none => none
    | some (true, vis) => some (.data, vis)
    | some (false, vis) =>
      match isUsedThroughAlias g o fuel label vis with
      | none => none
      | some (true, vis) => some (.alias, vis)
      | some (false, vis) => some (.none, vis)

theorem markLine_verdict (g : Usage) (o : Order) (n : Nat) (l : TLine) (v : List Str) :
    markLine g o n l v = (verdict g o n l.label v).map fun r => (r.1.set l, r.2) := by
  unfold markLine verdict
  cases isUsed g o n l.label 1 v with
  | none => rfl
  | some r =>
    obtain ⟨b, w⟩ := r
    cases b
    · dsimp only
      cases isDataUsedThroughAlias g o n l.label w with
      | none => rfl
      | some r =>
        obtain ⟨b, w⟩ := r
        cases b
        · dsimp only
          cases isUsedThroughAlias g o n l.label w with
          | none => rfl
          | some r =>
            obtain ⟨b, w⟩ := r
            cases b <;> rfl
        · rfl
    · rfl

theorem Mark.set_plain (m : Mark) (l : TLine) : (m.set l).plain = m.set l.plain := by cases m <;> rfl
theorem Mark.set_text (m : Mark) (l : TLine) : (m.set l).text = l.text := by cases m <;> rfl
theorem Mark.set_core (m : Mark) (l : TLine) : (m.set l).core = l.core := by cases m <;> rfl
theorem Mark.set_label (m : Mark) (l : TLine) : (m.set l).isLabel = l.isLabel ∧ (m.set l).label = l.label ∧ (m.set l).isData = l.isData := by
  cases m <;> exact ⟨rfl, rfl, rfl⟩

/-- Empty lines define no labels. -/
def NoEmptyLabel (ls : List TLine) : Prop := ∀ l ∈ ls, l.text = [] → l.isLabel = false

theorem map_core_set {ls : List TLine} {i : Nat} {l l' : TLine} (h : ls[i]? = some l) (e : l'.core = l.core) :
    (ls.set i l').map TLine.core = ls.map TLine.core := by
  rw [List.map_set, e]
  apply List.ext_getElem?
  intro j
  rw [List.getElem?_set]
  split
  · rename_i hij
    subst hij
    rw [List.getElem?_map, h]
    split
    · rfl
    · rename_i hx
      have := (List.getElem?_eq_some_iff.1 h).1
      rw [List.length_map] at hx
      exact absurd this hx
  · rfl

theorem noEmptyLabel_core {a b : List TLine} (h : NoEmptyLabel a) (e : b.map TLine.core = a.map TLine.core) : NoEmptyLabel b := by
  intro l hl ht
  have : l.core ∈ a.map TLine.core := by rw [← e]; exact List.mem_map_of_mem hl
  obtain ⟨x, hx, hc⟩ := List.mem_map.1 this
  have k1 : x.text = l.text := (congrArg TLine.text hc :)
  have k2 : x.isLabel = l.isLabel := (congrArg TLine.isLabel hc :)
  rw [← k2]
  exact h x hx (k1.trans ht)

theorem tableOk_core {a b : List TLine} {t : List (Str × Nat)} (h : TableOk a t) (e : b.map TLine.core = a.map TLine.core) : TableOk b t := by
  have look : ∀ {a b : List TLine}, b.map TLine.core = a.map TLine.core → ∀ (i : Nat) l, a[i]? = some l → ∃ l', b[i]? = some l' ∧ l'.isLabel = l.isLabel ∧ l'.label = l.label := by
    intro a b e i l hl
    have := congrArg (fun x => x[i]?) e
    simp only [List.getElem?_map, hl, Option.map_some, Option.map_eq_some_iff] at this
    obtain ⟨l', h1, h2⟩ := this
    exact ⟨l', h1, (congrArg TLine.isLabel h2 :), (congrArg TLine.label h2 :)⟩
  refine ⟨fun x hx => ?_, fun l hl hlab => ?_, h.nodup, fun a k hk i l hl h1 h2 => ?_⟩
  · obtain ⟨h1, l, h2, h3, h4⟩ := h.sound x hx
    obtain ⟨l', k1, k2, k3⟩ := look e _ l h2
    exact ⟨h1, l', k1, k2.trans h3, k3.trans h4⟩
  · obtain ⟨i, hi⟩ := List.getElem?_of_mem hl
    obtain ⟨l', k1, k2, k3⟩ := look e.symm _ l hi
    rw [← k3]
    exact h.complete l' (List.mem_of_getElem? k1) (k2.trans hlab)
  · obtain ⟨l', k1, k2, k3⟩ := look e.symm _ l hl
    exact h.last a k hk i l' k1 (k2.trans h1) (k3.trans h2)

/-- One label. -/
theorem markLoop_cons (o : Order) (n : Nat) (a : Str) (names : List Str) {p : TParser} (ht : TableOk p.lines p.labelsDefined)
    (ha : a ∈ p.labelsDefined.map (·.1)) (v : List Str) :
    ∃ i l, p.lines[i]? = some l ∧ TParser.markLoop o n (a :: names) p v = (match verdict p.usage o n a v with
      | none => none
      | some (m, w) => TParser.markLoop o n names { p with lines := p.lines.set i (m.set l) } w) ∧
      ∀ m : Mark, p.lines.set i (m.set l) = updLast (fun l => l.isLabel && l.label == a) m.set p.lines := by
  obtain ⟨k, hk⟩ := lookup_of_key ha
  obtain ⟨h1, l, h2, h3, h4⟩ := ht.sound _ (mem_of_lookup hk)
  refine ⟨k - 1, l, h2, ?_, fun m => ?_⟩
  · have e : (p.labelsDefined.lookup a).getD 0 - 1 = k - 1 := by rw [hk]; rfl
    have h4 : l.label = a := h4
    have h2 : p.lines[k - 1]? = some l := h2
    rw [TParser.markLoop]
    simp only [e, h2, markLine_verdict, h4]
    cases verdict p.usage o n a v with
    | none => rfl
    | some r => rfl
  · refine set_updLast m.set p.lines h2 (by simp [h3, h4]) fun j x hj hx => ?_
    rw [Bool.and_eq_true, beq_iff_eq] at hx
    have := ht.last a k hk j x hj hx.1 hx.2
    omega

theorem markLoop_filled (o : Order) (n : Nat) (names : List Str) : ∀ {p q : TParser} (v : List Str), p.usage = q.usage → filled p.lines = filled q.lines →
    TableOk p.lines p.labelsDefined → TableOk q.lines q.labelsDefined → NoEmptyLabel p.lines → NoEmptyLabel q.lines →
    (∀ a ∈ names, a ∈ p.labelsDefined.map (·.1)) → (∀ a ∈ names, a ∈ q.labelsDefined.map (·.1)) →
    (p.markLoop o n names v).map (fun r => (filled r.1.lines, r.2)) = (q.markLoop o n names v).map (fun r => (filled r.1.lines, r.2)) := by
  induction names with
  | nil =>
    intro p q v _ h _ _ _ _ _ _
    simp [TParser.markLoop, h]
  | cons a names ih =>
    intro p q v hu h tp tq np nq kp kq
    obtain ⟨i, l, h1, h2, h3⟩ := markLoop_cons o n a names tp (kp a (by simp)) v
    obtain ⟨i', l', h1', h2', h3'⟩ := markLoop_cons o n a names tq (kq a (by simp)) v
    rw [h2, h2', show verdict q.usage o n a v = verdict p.usage o n a v by rw [hu]]
    cases verdict p.usage o n a v with
    | none => rfl
    | some r =>
      obtain ⟨m, w⟩ := r
      show Option.map _ (TParser.markLoop o n names { p with lines := p.lines.set i (m.set l) } w) =
        Option.map _ (TParser.markLoop o n names { q with lines := q.lines.set i' (m.set l') } w)
      have hc := map_core_set (l' := m.set l) h1 (m.set_core l)
      have hc' := map_core_set (l' := m.set l') h1' (m.set_core l')
      refine ih (p := { p with lines := p.lines.set i (m.set l) }) (q := { q with lines := q.lines.set i' (m.set l') }) w hu ?_ (tableOk_core tp hc) (tableOk_core tq hc')
        (noEmptyLabel_core np hc) (noEmptyLabel_core nq hc') (fun b hb => kp b (List.mem_cons_of_mem _ hb)) (fun b hb => kq b (List.mem_cons_of_mem _ hb))
      show filled (p.lines.set i (m.set l)) = filled (q.lines.set i' (m.set l'))
      rw [h3, h3', filled_updLast (fun _ => rfl) m.set_plain m.set_text _ fun x hx ht => by simp [np x hx ht],
        filled_updLast (fun _ => rfl) m.set_plain m.set_text _ fun x hx ht => by simp [nq x hx ht], h]

/-! ### Removing -/

/-- The parsers finish lines in the same way. -/
structure Alike (p q : TParser) : Prop where
  filter : p.filter = q.filter
  usage : p.usage = q.usage
  files : p.files = q.files
  defs : ∀ a, (p.labelsDefined.lookup a).isSome = (q.labelsDefined.lookup a).isSome

theorem finishKept_plain {p q : TParser} (h : Alike p q) (l : TLine) : (p.finishKept l).plain = (q.finishKept l.plain).plain := by
  unfold TParser.finishKept
  have hlab : l.plain.labels.filter (fun r => (q.labelsDefined.lookup r.name).isSome) = l.labels.filter fun r => (p.labelsDefined.lookup r.name).isSome := by
    show l.labels.filter _ = _
    congr 1
    funext r
    exact (h.defs r.name).symm
  simp only [hlab, h.files]
  cases hl : l.isLabel
  · have e1 : l.plain.source = l.source.plain := by simp [TLine.plain, hl]
    have e2 : l.source.plain.fileIdx = l.source.fileIdx := rfl
    simp only [e1, e2]
    by_cases hi : l.source.fileIdx = 0
    · simp [hi, TLine.plain, hl]
    · simp only [ne_eq, hi, not_false_eq_true, if_true]
      cases q.files.lookup l.source.fileIdx with
      | none => simp [TLine.plain, hl]
      | some f => simp [TLine.plain, hl, TSource.plain]
  · have e1 : l.plain.source = {} := by simp [TLine.plain, hl]
    simp only [e1]
    by_cases hi : l.source.fileIdx = 0
    · simp [hi, TLine.plain, hl]
    · simp only [ne_eq, hi, not_false_eq_true, if_true]
      cases q.files.lookup l.source.fileIdx with
      | none => simp [TLine.plain, hl]
      | some f => simp [TLine.plain, hl]

theorem finishKept_text (p : TParser) (l : TLine) : (p.finishKept l).text = l.text := by
  unfold TParser.finishKept
  dsimp only
  repeat' split
  all_goals rfl

/-- Where it matters, labels are not data. -/
def DataApart (f : Filter) (ls : List TLine) : Prop := f.compatmode = true → f.directives = true → ∀ l ∈ ls, l.isLabel = true → l.isData = false

theorem filled_cons (l : TLine) (ls : List TLine) : filled (l :: ls) = if l.text = [] then filled ls else l.plain :: filled ls := by
  rw [show l :: ls = [l] ++ ls from rfl, filled_append, filled_one]
  split <;> rfl

theorem removeLoop_filled {p q : TParser} (h : Alike p q) (ls : List TLine) : ∀ r : RemState, NoEmptyLabel ls → DataApart p.filter ls →
    filled (p.removeLoop r ls).1 = filled (q.removeLoop r (filled ls)).1 := by
  induction ls with
  | nil => intro r _ _; rfl
  | cons l ls ih =>
    intro r hn hd
    have hn' : NoEmptyLabel ls := fun x hx => hn x (List.mem_cons_of_mem _ hx)
    have hd' : DataApart p.filter ls := fun a b x hx => hd a b x (List.mem_cons_of_mem _ hx)
    rw [filled_cons]
    by_cases ht : l.text = []
    · have hl := hn l (by simp) ht
      rw [if_pos ht]
      have e : remLabel p.filter p.usage r l = (r, false) := by unfold remLabel; rw [hl]; rfl
      rw [← ih r hn' hd']
      unfold TParser.removeLoop
      simp only [e]
      split
      · cases ls <;> rfl
      · rw [filled_cons, finishKept_text, if_pos ht]
        cases ls <;> rfl
    · rw [if_neg ht]
      have e : remLabel q.filter q.usage r l.plain = remLabel p.filter p.usage r l := by rw [h.filter, h.usage]; rfl
      have e2 : ∀ r b, remDrop q.filter r b l.plain = remDrop p.filter r b l := by
        intro r b
        rw [← h.filter]
        unfold remDrop
        cases hl : l.isLabel
        · have : l.plain.source.insideProc = l.source.insideProc := by simp [TLine.plain, hl, TSource.plain]
          rw [this]
          rfl
        · by_cases hc : p.filter.compatmode = true ∧ p.filter.directives = true
          · have := hd hc.1 hc.2 l (by simp) hl
            have k : l.plain.isData = l.isData := rfl
            rw [k, this]
            simp
          · have : (p.filter.compatmode && p.filter.directives) = false := by
              rw [Bool.eq_false_iff, Ne, Bool.and_eq_true]; exact hc
            rcases Bool.and_eq_false_iff.1 this with k | k <;> rw [k] <;> simp
      rw [TParser.removeLoop, TParser.removeLoop]
      simp only [e, e2]
      have ih' := ih (remLabel p.filter p.usage r l).1 hn' hd'
      split
      · exact ih'
      · rw [filled_cons, filled_cons, finishKept_text, finishKept_text, if_neg ht, if_neg (show l.plain.text ≠ [] from ht), ih', finishKept_plain h l]

/-! ### The result -/

theorem lookup_plain (t : List (Str × Nat)) (a : Str) : (t.lookup a).isSome = ((t.map fun e => (e.1, 0)).lookup a : Option Nat).isSome := by
  induction t with
  | nil => rfl
  | cons e t ih =>
    obtain ⟨k, v⟩ := e
    rw [List.map_cons, List.lookup_cons, List.lookup_cons]
    dsimp only
    cases a == k
    · exact ih
    · rfl

theorem lineOk_noEmpty {L : Locale} {f : Filter} {done : List Str} {cuda : Prop} {l : TLine} (h : LineOk L f done cuda l) (ht : l.text = []) : l.isLabel = false := by
  rcases h with h | h
  · exact (congrArg TLine.isLabel h :)
  · exact absurd ht h.text

theorem marked_filled {a b : TParser} (h : Alike a b) (hk : a.labelsDefined.map (·.1) = b.labelsDefined.map (·.1)) (hf : filled a.lines = filled b.lines)
    (ta : TableOk a.lines a.labelsDefined) (tb : TableOk b.lines b.labelsDefined) (na : NoEmptyLabel a.lines) (nb : NoEmptyLabel b.lines)
    (da : DataApart a.filter a.lines) (db : DataApart b.filter b.lines) (o : Order) (n : Nat) (v : List Str) {p : TParser} {v' : List Str}
    (hp : a.markLabelUsage o n v = some (p, v')) :
    ∃ p', b.markLabelUsage o n v = some (p', v') ∧ filled p'.removeUnused.lines = filled p.removeUnused.lines := by
  unfold TParser.markLabelUsage at hp ⊢
  have key := markLoop_filled o n (o.run .labels (a.labelsDefined.map (·.1))) v h.usage hf ta tb na nb
    (fun x hx => (o.perm _ _).mem_iff.1 hx) (fun x hx => hk ▸ (o.perm _ _).mem_iff.1 hx)
  rw [hp, hk] at key
  rw [hk] at hp
  cases hq : b.markLoop o n (o.run .labels (b.labelsDefined.map (·.1))) v with
  | none => rw [hq] at key; cases key
  | some r =>
    obtain ⟨p', w⟩ := r
    rw [hq] at key
    simp only [Option.map_some, Option.some.injEq, Prod.mk.injEq] at key
    obtain ⟨k1, rfl⟩ := key
    refine ⟨p', rfl, ?_⟩
    obtain ⟨l1, u1, e1, c1⟩ := markLoop_frame _ _ _ hp
    obtain ⟨l2, u2, e2, c2⟩ := markLoop_frame _ _ _ hq
    have core : ∀ {x y : List TLine}, x.map TLine.noUse = y.map TLine.noUse → x.map TLine.core = y.map TLine.core := by
      intro x y e
      have := congrArg (List.map TLine.core) e
      rw [List.map_map, List.map_map] at this
      exact this
    have dat : ∀ {f : Filter} {x y : List TLine}, x.map TLine.noUse = y.map TLine.noUse → DataApart f y → DataApart f x := by
      intro f x y e h a b l hl hlab
      have : l.noUse ∈ y.map TLine.noUse := by rw [← e]; exact List.mem_map_of_mem hl
      obtain ⟨l', h1, h2⟩ := List.mem_map.1 this
      have k1 : l'.isLabel = l.isLabel := (congrArg TLine.isLabel h2 :)
      have k2 : l'.isData = l.isData := (congrArg TLine.isData h2 :)
      rw [← k2]
      exact h a b l' h1 (k1.trans hlab)
    have fin : ∀ {p q : TParser}, Alike p q → NoEmptyLabel p.lines → DataApart p.filter p.lines → filled p.removeUnused.lines = filled (q.removeLoop {} (filled p.lines)).1 :=
      fun h1 h2 h3 => removeLoop_filled h1 _ _ h2 h3
    have a1 : Alike p b := by subst e1; exact ⟨h.filter, h.usage, h.files, h.defs⟩
    have a2 : Alike p' b := by subst e2; exact ⟨rfl, rfl, rfl, fun _ => rfl⟩
    have n1 : NoEmptyLabel p.lines := by subst e1; exact noEmptyLabel_core na (core c1)
    have n2 : NoEmptyLabel p'.lines := by subst e2; exact noEmptyLabel_core nb (core c2)
    have d1 : DataApart p.filter p.lines := by subst e1; exact dat c1 da
    have d2 : DataApart p'.filter p'.lines := by subst e2; exact dat c2 db
    rw [fin a1 n1 d1, fin a2 n2 d2, k1]

theorem fromStream_filled (L : Locale) {f : Filter} (hl : f.libraryFunctions = false) {s s' : Str}
    (h : (inputLines s).filter (· ≠ []) = (inputLines s').filter (· ≠ []))
    (hd : DataApart f ((TParser.init f).readStream L s).lines) (hd' : DataApart f ((TParser.init f).readStream L s').lines) (o : Order) (n : Nat) (v : List Str)
    {p : TParser} {v' : List Str} (hp : (TParser.init f).fromStream L o n s v = some (p, v')) :
    ∃ p', (TParser.init f).fromStream L o n s' v = some (p', v') ∧ filled p'.lines = filled p.lines := by
  have hr := readStream_plain L hl h
  obtain ⟨_, _, i1⟩ := textInv L f s
  obtain ⟨_, _, i2⟩ := textInv L f s'
  have f1 : ((TParser.init f).readStream L s).filter = f := (readStream_lines L f (fun _ _ => True) trivial (fun _ _ _ _ _ _ _ _ => trivial) s).choose_spec.2.2.1
  have f2 : ((TParser.init f).readStream L s').filter = f := (readStream_lines L f (fun _ _ => True) trivial (fun _ _ _ _ _ _ _ _ => trivial) s').choose_spec.2.2.1
  unfold TParser.fromStream at hp ⊢
  generalize (TParser.init f).readStream L s = a at *
  generalize (TParser.init f).readStream L s' = b at *
  have keys : a.labelsDefined.map (fun e => (e.1, 0)) = b.labelsDefined.map (fun e => (e.1, 0)) := (congrArg TParser.labelsDefined hr :)
  have us : a.usage = b.usage := (congrArg TParser.usage hr :)
  have defs : ∀ x, (a.labelsDefined.lookup x).isSome = (b.labelsDefined.lookup x).isSome := by
    intro x
    rw [lookup_plain, lookup_plain b.labelsDefined, keys]
  have al : Alike a.filterNonLabels b.filterNonLabels := by
    refine ⟨f1.trans f2.symm, ?_, (congrArg TParser.files hr :), defs⟩
    have e : ∀ p : TParser, p.filterNonLabels.usage = { p.usage with
        used := p.usage.used.filter fun e => (p.labelsDefined.lookup e.1).isSome, weaklyUsed := p.usage.weaklyUsed.filter fun e => (p.labelsDefined.lookup e.1).isSome } := fun _ => rfl
    have : (fun e : Str × List Str => (a.labelsDefined.lookup e.1).isSome) = fun e => (b.labelsDefined.lookup e.1).isSome := funext fun e => defs e.1
    rw [e, e, this, us]
  have hk : a.filterNonLabels.labelsDefined.map (·.1) = b.filterNonLabels.labelsDefined.map (·.1) := by
    have := congrArg (List.map Prod.fst) keys
    rw [List.map_map, List.map_map] at this
    exact this
  cases hm : a.filterNonLabels.markLabelUsage o n v with
  | none => rw [hm] at hp; cases hp
  | some r =>
    obtain ⟨q, w⟩ := r
    rw [hm] at hp
    simp only [Option.some.injEq, Prod.mk.injEq] at hp
    obtain ⟨rfl, rfl⟩ := hp
    have d1 : DataApart a.filterNonLabels.filter a.filterNonLabels.lines := by
      show DataApart a.filter a.lines
      rw [f1]; exact hd
    have d2 : DataApart b.filterNonLabels.filter b.filterNonLabels.lines := by
      show DataApart b.filter b.lines
      rw [f2]; exact hd'
    obtain ⟨p', h1, h2⟩ := marked_filled al hk (congrArg TParser.lines hr :) i1.table i2.table (fun l hl ht => lineOk_noEmpty (i1.lines l hl) ht)
      (fun l hl ht => lineOk_noEmpty (i2.lines l hl) ht) d1 d2 o n v hm
    exact ⟨p'.removeUnused, by rw [h1], h2⟩

end AsmParser
