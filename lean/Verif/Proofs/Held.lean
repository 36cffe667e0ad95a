import Verif.Proofs.GraphRead
import Verif.Spec.Lines

/-! What is stored about each line that is read, for C67. -/

namespace AsmParser

attribute [local irreducible] Re.search Re.fullMatch

/-- A line without source, section and allocation number. -/
def TLine.bare (l : TLine) : TLine := { l with id := 0, sect := {}, source := {} }

/-- The lines with a text. -/
def TParser.held (p : TParser) : List TLine := (p.lines.map TLine.bare).filter fun l => l.text ≠ []

/-- What `eolFinish` adds to a line. -/
def finished (L : Locale) (code inl : Bool) (parent : Str) (ln : TLine) : TLine :=
  { ln.bare with
    isInlineAsm := inl
    hasOpcode := hasOpcode ln.text code
    labels := if !ln.isLabel && (hasOpcode ln.text code || ln.isData) then getUsedLabelsInLine L ln.text else []
    closestParentLabel := if ln.isAssignment || ln.label == parent then [] else parent }

theorem aliasing_lines (p : TParser) (ln : TLine) : (p.handleLabelAliasing ln).lines = p.lines := by
  unfold TParser.handleLabelAliasing
  simp only
  repeat' split
  all_goals rfl

theorem finish_lines (L : Locale) (q : TParser) (ln : TLine) : ∃ x, (q.eolFinish L ln).lines = q.lines ++ [x] ∧
    x.bare = finished L q.st.inNvccCode (decide (q.st.inCustomAssembly > 0)) q.st.previousParentLabel.s ln := by
  unfold TParser.eolFinish
  simp only [TParser.clear, aliasing_lines]
  cases hl : ln.isLabel <;> cases ho : hasOpcode ln.text q.st.inNvccCode <;> cases hd : ln.isData
  all_goals
    refine ⟨_, rfl, ?_⟩
    simp [TParser.extractUsedLabelsFromOpcodeLine, TParser.extractUsedLabelsFromDataLine, finished, TLine.bare, hl, ho, hd]

theorem amended_held {p q : TParser} (h : Amended p.lines q.lines) : q.held = p.held := by
  unfold TParser.held
  rw [h.map TLine.bare fun _ => rfl]

/-- What is stored about the line. -/
def TParser.made (L : Locale) (p : TParser) : TLine :=
  finished L (p.st.inNvccCode || p.header) p.seen.inline p.lab.1.st.previousParentLabel.s { p.lab.2 with
    isDirective := p.handled || (!p.st.inNvccDef && !p.lab.2.isLabel && !p.lab.2.isData && isDirective p.newLine.text) }

/-- Nothing is stored about the line. -/
def TParser.lost (p : TParser) : Bool := !(p.st.inNvccDef || p.header) && p.dropDir

inductive EolHeld (L : Locale) (p p' : TParser) : Prop
  | same (h : (p.inBlock || isEmptyOrJustWhitespace p.st.text || (p.filter.directives && p.atProc)) = true) (e : p'.held = p.held)
  | drop (h : (p.inBlock || isEmptyOrJustWhitespace p.st.text || (p.filter.directives && p.atProc)) = false)
      (hs : p.seen.skipped = true ∨ p.lost = true) (e : p'.held = p.held)
  | keep (h : (p.inBlock || isEmptyOrJustWhitespace p.st.text || (p.filter.directives && p.atProc)) = false)
      (hs : p.seen.skipped = false) (hl : p.lost = false) (e : p'.held = p.held ++ [p.made L]) (hp : p'.graph.parent = p.lab.1.st.previousParentLabel.s)

theorem finish_parent (L : Locale) (q : TParser) (ln : TLine) : (q.eolFinish L ln).graph.parent = q.st.previousParentLabel.s := by
  have ha : ∀ (p : TParser) (ln : TLine), (p.handleLabelAliasing ln).st.previousParentLabel = p.st.previousParentLabel := by
    intro p ln
    unfold TParser.handleLabelAliasing
    simp only
    repeat' split
    all_goals rfl
  unfold TParser.eolFinish TParser.graph
  simp only [TParser.clear, ha]
  cases ln.isLabel <;> cases hasOpcode ln.text q.st.inNvccCode <;> cases ln.isData <;>
    simp [TParser.extractUsedLabelsFromOpcodeLine, TParser.extractUsedLabelsFromDataLine]

theorem lab_directive (p : TParser) : p.lab.2.isDirective = p.handled := by
  unfold TParser.lab
  cases p.handled <;> rfl

theorem eol_held (L : Locale) (p : TParser) (hb : Basic p) : EolHeld L p (p.eol L) := by
  obtain ⟨ln1, ln2, ln3, ln4⟩ := lab_nv p
  obtain ⟨lsrc1, lsrc2, lasm⟩ := lab_src p
  have cond : (p.filter.commentOnly = true → p.st.hasStartedCommentBlock = false ∧ startCommentBlock p.st.text = false) →
      isEmptyOrJustWhitespace p.st.text = false → (p.filter.directives = true → p.atProc = false) →
      (p.inBlock || isEmptyOrJustWhitespace p.st.text || (p.filter.directives && p.atProc)) = false := by
    intro h1 h2 h3
    rw [inBlock_false h1, h2]
    cases hd : p.filter.directives with
    | false => rfl
    | true => rw [h3 hd]; rfl
  have hsec : ∀ q : TParser, q.lines = p.sec.lines → q.held = p.held := by
    intro q hq
    have h1 : Amended p.lines q.lines := by rw [hq]; exact (frame_sec p).lines
    exact amended_held h1
  have hdef : p.lab.1.st.inNvccDef = (p.st.inNvccDef || p.header) := congrArg (·.2) ln1
  have hcode : p.lab.1.st.inNvccCode = (p.st.inNvccCode || p.header) := congrArg (·.1) ln1
  have hline : p.lab.2.isLabel = false → p.lab.2.isData = false → p.st.inNvccDef = false →
      p.dirLine = { p.lab.2 with isDirective := p.handled || (!p.st.inNvccDef && !p.lab.2.isLabel && !p.lab.2.isData && isDirective p.newLine.text) } := by
    intro g1 g2 g3
    obtain ⟨d, hd⟩ := dirLine_lab p
    have : d = (p.handled || isDirective p.newLine.text) := by rw [← ln4, hd]
    rw [hd, this, g1, g2, g3]
    rfl
  refine eol_elim L (P := fun q => EolHeld L p q) p hb ?_ ?_ ?_ ?_ ?_ ?_ ?_
  · intro h1 h2
    refine .same ?_ rfl
    have : p.inBlock = true := by
      unfold TParser.inBlock
      rw [h1]
      simpa using h2
    rw [this]; rfl
  · intro h1 h2
    refine .same (by rw [h2]; simp) ?_
    rcases maybeAddBlank_cases p.start (p.nextId + 1) with e | ⟨x, -, -, e⟩ <;> rw [e]
    · rfl
    · unfold TParser.held
      simp only [List.map_append, List.filter_append]
      exact List.append_nil _
  · intro h1 h2 h3 h4
    exact .same (by rw [h3, h4]; simp) (amended_held (p := p) (frame_pre p).lines)
  · intro h1 h2 h3 h4
    exact .drop (cond h1 h2 h3) (.inl (by show (p.filter.libraryFunctions || _) = true; rw [h4]; rfl)) (hsec _ rfl)
  · intro h1 h2 h3 h4 h5 h6
    refine .drop (cond h1 h2 h3) (.inl ?_) (hsec _ rfl)
    show (p.filter.libraryFunctions || p.isComment) = true
    unfold TParser.isComment
    rw [h5]
    rcases h6 with ⟨g1, g2⟩ | ⟨g1, g2⟩ <;> rw [g1, g2] <;> simp
  · intro h1 h2 h3 h4 h5 h6 h7 h8 h9 h10 h11
    refine .drop (cond h1 h2 h3) (.inr ?_) ?_
    · rw [hdef] at h5
      rw [ln2] at h6
      rw [ln3] at h7
      rw [ln4] at h8
      unfold TParser.lost TParser.dropDir
      rw [h5, h9, h10]
      cases hh : p.handled with
      | true => rfl
      | false =>
        rw [hh] at h6 h7 h8
        simp only [Bool.not_false, Bool.true_and, Bool.false_or] at h6 h7 h8
        rw [h7, h8]
        cases hg : getLabelFromLine p.newLine.text with
        | none => rfl
        | some x => rw [hg] at h6; cases h6
    · refine hsec _ ?_
      rw [← lsrc1]
      unfold TParser.extractUsedLabelsFromDirective TParser.clear
      simp only
      repeat' split
      all_goals rfl
  · intro h1 h2 h3 h4 h5 q ln hq
    have hsk : p.seen.skipped = false := by
      show (p.filter.libraryFunctions || p.isComment) = false
      rw [h4, isComment_of h5]; rfl
    have key : p.lost = false ∧ q.lines = p.sec.lines ∧ q.st.inNvccCode = p.lab.1.st.inNvccCode ∧
        q.st.inCustomAssembly = nesting p.st.inCustomAssembly p.st.text ∧ q.st.previousParentLabel = p.lab.1.st.previousParentLabel ∧
        ln = { p.lab.2 with isDirective := p.handled || (!p.st.inNvccDef && !p.lab.2.isLabel && !p.lab.2.isData && isDirective p.newLine.text) } := by
      rcases hq with ⟨k1, rfl, rfl⟩ | ⟨k1, k2, k3, rfl, k4, k5, k6, rfl⟩ | ⟨k1, k2, k3, rfl, k4, rfl⟩ | ⟨k1, k2, rfl, rfl⟩
      · rw [hdef] at k1
        refine ⟨by unfold TParser.lost; rw [k1]; rfl, ?_, ?_, ?_, ?_, ?_⟩
        · rw [← lsrc1]; split <;> rfl
        · split <;> rfl
        · rw [← lasm]; split <;> rfl
        · split <;> rfl
        · have : p.lab.2.isDirective = (p.handled || (!p.st.inNvccDef && !p.lab.2.isLabel && !p.lab.2.isData && isDirective p.newLine.text)) := by
            rw [lab_directive]
            cases hd : p.st.inNvccDef with
            | true => simp
            | false =>
              rw [hd, Bool.false_or] at k1
              have : p.lab.2.isLabel = true := by
                rw [ln2]
                unfold TParser.header isHeader at k1
                cases hg : getLabelFromLine p.newLine.text with
                | none => rw [hg] at k1; simp at k1
                | some x => rw [hg] at k1; simp only [Bool.and_eq_true] at k1; rw [k1.1]; rfl
              rw [this]; simp
          rw [← this]
      · rw [hdef] at k1
        refine ⟨by unfold TParser.lost TParser.dropDir; rw [k6]; simp, ?_, ?_, ?_, ?_, ?_⟩
        · rw [← lsrc1]
          unfold TParser.extractUsedLabelsFromDirective
          repeat' split
          all_goals rfl
        · rw [(dir_graph _ _ _).2]
        · rw [(dir_graph _ _ _).2, lasm]
        · rw [(dir_graph _ _ _).2]
        · rw [hline k2 k3 (Bool.or_eq_false_iff.1 k1).1]
      · rw [hdef] at k1
        refine ⟨?_, lsrc1, rfl, lasm, rfl, hline k2 k3 (Bool.or_eq_false_iff.1 k1).1⟩
        unfold TParser.lost TParser.dropDir
        rw [ln4] at k4
        rcases k4 with k4 | k4
        · rw [Bool.or_eq_false_iff] at k4
          rw [k4.1, k4.2]; simp
        · rw [k4]; simp
      · refine ⟨?_, lsrc1, rfl, lasm, rfl, ?_⟩
        · unfold TParser.lost TParser.dropDir
          rw [ln2, ln3] at k2
          rcases k2 with k2 | k2 <;> rw [Bool.and_eq_true, Bool.not_eq_true'] at k2 <;> rw [k2.1]
          · cases hg : getLabelFromLine p.newLine.text with
            | none => rw [hg] at k2; exact absurd k2.2 (by simp)
            | some x => simp
          · rw [k2.2]; simp
        · have : p.lab.2.isDirective = (p.handled || (!p.st.inNvccDef && !p.lab.2.isLabel && !p.lab.2.isData && isDirective p.newLine.text)) := by
            rw [lab_directive]
            rcases k2 with k2 | k2 <;> rw [k2] <;> simp
          rw [← this]
    obtain ⟨g1, g2, g3, g4, g5, g6⟩ := key
    obtain ⟨x, e1, e2⟩ := finish_lines L q ln
    refine .keep (cond h1 h2 h3) hsk g1 ?_ (by rw [finish_parent, g5])
    have hx : x.text = p.newLine.text := by
      have : x.bare.text = ln.text := by rw [e2]; rfl
      rw [g6] at this
      exact this.trans (lab_text p)
    unfold TParser.held
    rw [e1, List.map_append, List.filter_append, List.map_singleton, List.filter_cons_of_pos (by
      show decide (x.text ≠ []) = true
      rw [hx]; simpa using newLine_ne p h2), List.filter_nil, e2, g3, g4, g5, g6, hcode]
    congr 1
    exact hsec q g2

/-! ### What the line says -/

theorem seen_header (p : TParser) : p.seen.Header ↔ p.header = true := by
  unfold Seen.Header TParser.header
  rw [seen_info, Bool.and_eq_true, isHeader_iff]
  simp only [Bool.not_eq_true', Bool.not_eq_true]
  exact Iff.rfl

theorem seen_kept (p : TParser) : p.seen.Kept p.filter ↔ p.seen.skipped = false ∧ p.lost = false := by
  unfold Seen.Kept TParser.lost
  rw [seen_header, seen_info]
  refine and_congr Iff.rfl ?_
  have hd := dropDir_iff p
  rw [← occurs_iff]
  have ht : p.seen.text = p.newLine.text := rfl
  have hp : p.seen.params = p.st.inNvccDef := rfl
  rw [ht, hp]
  cases h1 : p.st.inNvccDef with
  | true => simp
  | false =>
    cases h2 : p.header with
    | true => simp
    | false =>
      simp only [Bool.or_self, Bool.not_false, Bool.true_and, Bool.false_eq_true, false_or]
      rw [show (p.dropDir = false ↔ ¬ p.dropDir = true) by simp, hd]
      cases h3 : p.filter.directives with
      | false => simp
      | true =>
        simp only [Bool.true_eq_false, false_or, true_and, not_or, not_and, Classical.not_not]

/-- The line before the references are filtered. -/
structure Told (L : Locale) (ts : List Seen) (k : Nat) (t : Seen) (l : TLine) : Prop where
  rest : Describes ts (fun _ => true) k t l
  refs : l.labels = if l.isLabel = false ∧ (l.hasOpcode = true ∨ l.isData = true) then getUsedLabelsInLine L t.text else []

theorem lab_found (p : TParser) : p.lab.2.text = p.newLine.text ∧
    (p.found = none → p.lab.2.isLabel = false ∧ p.lab.2.label = [] ∧ p.lab.2.isInternalLabel = false ∧ p.lab.2.isAssignment = false) ∧
    ∀ l a c, p.found = some (l, a, c) → p.lab.2.isLabel = true ∧ p.lab.2.label = l ∧ p.lab.2.isInternalLabel = isInternalLabel l ∧
      p.lab.2.isAssignment = a := by
  refine ⟨lab_text p, ?_, ?_⟩
  · unfold TParser.found TParser.lab
    split
    · intro _; exact ⟨rfl, rfl, rfl, rfl⟩
    · intro h
      unfold TParser.handleLabelDefinition
      rw [h]; exact ⟨rfl, rfl, rfl, rfl⟩
  · intro l a c
    unfold TParser.found TParser.lab
    split
    · intro h; cases h
    · intro h
      unfold TParser.handleLabelDefinition
      rw [h]; exact ⟨rfl, rfl, rfl, rfl⟩

theorem made_told (L : Locale) {ts : List Seen} (p : TParser) (hs : p.seen.skipped = false)
    (hf : FunctionAt (ts ++ [p.seen]) p.lab.1.st.previousParentLabel.s) : Told L (ts ++ [p.seen]) ts.length p.seen (p.made L) := by
  obtain ⟨f1, f2, f3⟩ := lab_found p
  obtain ⟨-, ln2, ln3, ln4⟩ := lab_nv p
  have hop : (p.made L).hasOpcode = hasOpcode p.newLine.text (p.st.inNvccCode || p.header) := by
    show hasOpcode p.lab.2.text _ = _
    rw [f1]
  have hdata : (p.made L).isData = true ↔ ¬ p.seen.Info ∧ StartsWithOneOf dataDirectives p.seen.text := by
    show p.lab.2.isData = true ↔ _
    rw [ln3, Bool.and_eq_true, isDataDefn_iff, seen_info]
    simp only [Bool.not_eq_true', Bool.not_eq_true]
    exact Iff.rfl
  have hrefs : (p.made L).labels =
      if (p.made L).isLabel = false ∧ ((p.made L).hasOpcode = true ∨ (p.made L).isData = true) then getUsedLabelsInLine L p.seen.text else [] := by
    show (if !p.lab.2.isLabel && (hasOpcode p.lab.2.text _ || p.lab.2.isData) then getUsedLabelsInLine L p.lab.2.text else []) =
      if p.lab.2.isLabel = false ∧ (hasOpcode p.lab.2.text _ = true ∨ p.lab.2.isData = true) then _ else _
    rw [f1]
    cases p.lab.2.isLabel <;> cases hasOpcode p.newLine.text (p.st.inNvccCode || p.header) <;> cases p.lab.2.isData <;> rfl
  refine ⟨⟨f1, ?_, ?_, ?_, hdata, ?_, ?_, rfl, ?_, ?_⟩, hrefs⟩
  · cases h : p.found with
    | none => obtain ⟨g1, g2, -⟩ := f2 h; exact .inr ⟨g1, g2, found_none h⟩
    | some x =>
      obtain ⟨l, a, c⟩ := x
      obtain ⟨g1, g2, -⟩ := f3 l a c h
      refine .inl ⟨g1, ?_⟩
      show p.seen.Defines p.lab.2.label
      rw [g2]
      exact (found_some hs h).1
  · show p.lab.2.isInternalLabel = true ↔ p.lab.2.isLabel = true ∧ Internal p.lab.2.label
    cases h : p.found with
    | none => obtain ⟨g1, -, g3, -⟩ := f2 h; rw [g1, g3]; simp
    | some x =>
      obtain ⟨l, a, c⟩ := x
      obtain ⟨g1, g2, g3, -⟩ := f3 l a c h
      rw [g1, g2, g3, internal_iff]; simp
  · show p.lab.2.isAssignment = true ↔ p.lab.2.isLabel = true ∧ Assigns p.seen.text p.lab.2.label
    cases h : p.found with
    | none => obtain ⟨g1, -, -, g4⟩ := f2 h; rw [g1, g4]; simp
    | some x =>
      obtain ⟨l, a, c⟩ := x
      obtain ⟨g1, g2, -, g4⟩ := f3 l a c h
      rw [g1, g2, g4]
      obtain ⟨-, h2, h3⟩ := found_some hs h
      constructor
      · intro ha; exact ⟨rfl, h2 ha⟩
      · rintro ⟨-, ha⟩
        cases a with
        | true => rfl
        | false => exact (places_not_assigns (h3 rfl) ha).elim
  · rw [hop, hasOpcode_iff, seen_header]
    show Instruction (p.st.inNvccCode || p.header) p.newLine.text ↔ p.header = true ∧ Instruction true p.newLine.text ∨ ¬ p.header = true ∧ Instruction p.st.inNvccCode p.newLine.text
    cases p.header <;> simp
  · show (p.handled || (!p.st.inNvccDef && !p.lab.2.isLabel && !p.lab.2.isData && isDirective p.newLine.text)) = true ↔
      p.seen.Info ∨ p.lab.2.isLabel = false ∧ p.lab.2.isData = false ∧ p.st.inNvccDef = false ∧ Directive p.newLine.text
    rw [seen_info, show Directive p.newLine.text ↔ isDirective p.newLine.text = true from (isDirective_iff _).symm]
    cases p.handled <;> cases p.st.inNvccDef <;> cases p.lab.2.isLabel <;> cases p.lab.2.isData <;> simp
  · refine ⟨_, by rw [take_self]; exact hf, ?_⟩
    show (if p.lab.2.isAssignment || p.lab.2.label == p.lab.1.st.previousParentLabel.s then [] else p.lab.1.st.previousParentLabel.s) =
      if p.lab.2.isAssignment = true ∨ p.lab.2.label = p.lab.1.st.previousParentLabel.s then [] else _
    cases p.lab.2.isAssignment <;> by_cases h : p.lab.2.label = p.lab.1.st.previousParentLabel.s <;> simp [h]
  · rw [hrefs]
    split
    · rw [usedLabels_names]; exact (List.filter_eq_self.2 fun _ _ => rfl).symm
    · rfl

/-- The lines that are stored, with their numbers. -/
structure HeldInv (L : Locale) (f : Filter) (ts : List Seen) (hs : List TLine) (zs : List (TLine × Nat)) : Prop where
  map : zs.map (·.1) = hs
  pair : zs.Pairwise fun a b => a.2 < b.2
  all : ∀ k, (∃ z ∈ zs, z.2 = k) ↔ ∃ t, ts[k]? = some t ∧ t.Kept f
  told : ∀ z ∈ zs, ∃ t, ts[z.2]? = some t ∧ Told L ts z.2 t z.1

theorem Told.snoc {L : Locale} {ts : List Seen} {k : Nat} {t : Seen} {l : TLine} (h : Told L ts k t l) (hk : k < ts.length) (u : Seen) :
    Told L (ts ++ [u]) k t l := by
  obtain ⟨⟨h1, h2, h3, h4, h5, h6, h7, h8, ⟨q, h9, h9'⟩, h10⟩, h11⟩ := h
  exact ⟨⟨h1, h2, h3, h4, h5, h6, h7, h8, ⟨q, by rwa [List.take_append_of_le_length hk], h9'⟩, h10⟩, h11⟩

theorem HeldInv.lt {L : Locale} {f : Filter} {ts : List Seen} {hs : List TLine} {zs : List (TLine × Nat)} (h : HeldInv L f ts hs zs) :
    ∀ z ∈ zs, z.2 < ts.length := by
  intro z hz
  obtain ⟨t, ht, -⟩ := h.told z hz
  exact (List.getElem?_eq_some_iff.1 ht).1

theorem HeldInv.drop {L : Locale} {f : Filter} {ts : List Seen} {hs : List TLine} {zs : List (TLine × Nat)} (h : HeldInv L f ts hs zs)
    {t : Seen} (hk : ¬ t.Kept f) : HeldInv L f (ts ++ [t]) hs zs := by
  refine ⟨h.map, h.pair, fun k => ?_, fun z hz => ?_⟩
  · rw [h.all]
    constructor
    · rintro ⟨u, h1, h2⟩
      exact ⟨u, by rw [List.getElem?_append_left (List.getElem?_eq_some_iff.1 h1).1]; exact h1, h2⟩
    · rintro ⟨u, h1, h2⟩
      rcases get_snoc h1 with h1 | ⟨-, rfl⟩
      · exact ⟨u, h1, h2⟩
      · exact (hk h2).elim
  · obtain ⟨u, h1, h2⟩ := h.told z hz
    exact ⟨u, by rw [List.getElem?_append_left (h.lt z hz)]; exact h1, h2.snoc (h.lt z hz) t⟩

theorem HeldInv.push {L : Locale} {f : Filter} {ts : List Seen} {hs : List TLine} {zs : List (TLine × Nat)} (h : HeldInv L f ts hs zs)
    {t : Seen} {l : TLine} (hk : t.Kept f) (ht : Told L (ts ++ [t]) ts.length t l) :
    HeldInv L f (ts ++ [t]) (hs ++ [l]) (zs ++ [(l, ts.length)]) := by
  refine ⟨by rw [List.map_append, h.map]; rfl, ?_, fun k => ?_, fun z hz => ?_⟩
  · rw [List.pairwise_append]
    refine ⟨h.pair, by simp, fun a ha b hb => ?_⟩
    rw [List.mem_singleton] at hb
    subst hb
    exact h.lt a ha
  · constructor
    · rintro ⟨z, hz, rfl⟩
      rcases List.mem_append.1 hz with hz | hz
      · obtain ⟨u, h1, h2⟩ := (h.all _).1 ⟨z, hz, rfl⟩
        exact ⟨u, by rw [List.getElem?_append_left (h.lt z hz)]; exact h1, h2⟩
      · rw [List.mem_singleton] at hz
        subst hz
        exact ⟨t, by simp, hk⟩
    · rintro ⟨u, h1, h2⟩
      rcases get_snoc h1 with h1 | ⟨rfl, rfl⟩
      · obtain ⟨z, hz, rfl⟩ := (h.all _).2 ⟨u, h1, h2⟩
        exact ⟨z, by simp [hz], rfl⟩
      · exact ⟨(l, ts.length), by simp, rfl⟩
  · rcases List.mem_append.1 hz with hz | hz
    · obtain ⟨u, h1, h2⟩ := h.told z hz
      exact ⟨u, by rw [List.getElem?_append_left (h.lt z hz)]; exact h1, h2.snoc (h.lt z hz) t⟩
    · rw [List.mem_singleton] at hz
      subst hz
      exact ⟨t, by simp, ht⟩

variable [Recognizers]

theorem heldInv_step (L : Locale) (f : Filter) (sc : Scan) (p : TParser) (l : Str) (hf : p.filter = f) (hb : Basic p)
    (h : ReadInv sc p) (hg : LabelInv sc.texts p) (hh : ∃ zs, HeldInv L f sc.texts p.held zs) :
    ∃ zs, HeldInv L f (Scan.line f sc l).texts ((p.addText l).eol L).held zs := by
  have hn := (labelInv_step L f sc p l hf hb h hg).graph.parent
  have ht := line_texts f sc p l hf h
  have hhe := eol_held L (p.addText l) (basic_addText hb l)
  obtain ⟨zs, hz⟩ : ∃ zs, HeldInv L f sc.texts (p.addText l).held zs := hh
  have hfl : (p.addText l).filter = f := hf
  clear h hg hb hf
  rw [ht] at hn ⊢
  clear ht
  generalize p.addText l = p at *
  generalize p.eol L = p' at *
  have hk := seen_kept p
  rw [hfl] at hk
  rcases hhe with ⟨h, e⟩ | ⟨h, hs, e⟩ | ⟨h, hs, hl, e, hp⟩
  · rw [if_pos h, e]; exact ⟨zs, hz⟩
  · rw [if_neg (by rw [h]; simp), e]
    refine ⟨zs, hz.drop fun hc => ?_⟩
    obtain ⟨h1, h2⟩ := hk.1 hc
    rcases hs with hs | hs
    · rw [h1] at hs; cases hs
    · rw [h2] at hs; cases hs
  · rw [if_neg (by rw [h]; simp), hp] at hn
    rw [if_neg (by rw [h]; simp), e]
    exact ⟨_, hz.push (hk.2 ⟨hs, hl⟩) (made_told L p hs hn)⟩

/-- The lines after the input is read. -/
theorem readHeld (L : Locale) (f : Filter) (s : Str) : ∃ zs, HeldInv L f (seen f s) ((TParser.init f).readStream L s).held zs := by
  obtain ⟨e, he, h, -, -⟩ := readStream_lines L f (fun done p => TextInv L f done p ∧ ReadInv (scanned f done) p ∧
      LabelInv (scanned f done).texts p ∧ ∃ zs, HeldInv L f (scanned f done).texts p.held zs)
    ⟨⟨fun c hc => absurd hc (by simp [TParser.init]), by simp [TParser.init], by simp [TParser.init],
      ⟨by simp [TParser.init], by simp [TParser.init], by simp [TParser.init], by simp [TParser.init]⟩, trivial, fun _ => rfl⟩,
     ⟨rfl, rfl, rfl, rfl, rfl, rfl, fun h => (h rfl).elim,
      ⟨⟨none, .start, rfl, rfl⟩, fun i name => ⟨fun h => by simp [TParser.init] at h, fun ⟨a, t, b, e, _⟩ => by
        simp [scanned] at e⟩, .inl ⟨rfl, fun t ht => by simp [scanned] at ht⟩, .inl ⟨rfl, fun t ht => by simp [scanned] at ht⟩⟩,
        [], rfl, by simp, .nil, by simp, fun za z zb e => by simp at e⟩,
     ⟨graphInv_nil, ⟨fun h => (by simp [TParser.init] at h), fun h => (h rfl).elim⟩⟩,
     [], rfl, .nil, by simp [scanned], by simp⟩
    (fun done p l _ hf hb h hs => ⟨textInv_step L f done p l hf h.1 hs, by
      rw [scanned_snoc]
      exact readInv_step L f _ p l hf hb h.2.1 hs, by
      rw [scanned_snoc]
      exact labelInv_step L f _ p l hf hb h.2.1 h.2.2.1, by
      rw [scanned_snoc]
      exact heldInv_step L f _ p l hf hb h.2.1 h.2.2.1 h.2.2.2⟩) s
  rcases he with rfl | ⟨rfl, q, hq, hi', hr, -⟩
  · rw [List.append_nil] at h
    exact h.2.2.2
  · obtain ⟨hi, -, -, h⟩ := h
    have hb : (scanned f (inputLines s)).carry.all (fun c => c = 32 || c = 9) = true := by
      rw [← hr.carry, ← white_scan, blanks_white]
      exact hi'.carry
    have e : (Scan.line f (scanned f (inputLines s)) []).texts = seen f s := by
      unfold Scan.line
      simp only [List.append_nil, hb, if_true]
      split <;> rfl
    rw [scanned_snoc, e] at h
    exact h

omit [Recognizers] in
theorem Describes.congr {ts : List Seen} {d d' : Str → Bool} {k : Nat} {t : Seen} {l l' : TLine} (h : Describes ts d k t l)
    (e : l'.core.bare = l.core.bare) (hr : l'.labels.map (·.name) =
      if l.isLabel = false ∧ (l.hasOpcode = true ∨ l.isData = true) then (mentioned t.text).filter d' else []) :
    Describes ts d' k t l' := by
  obtain ⟨h1, h2, h3, h4, h5, h6, h7, h8, h9, -⟩ := h
  have e1 : l'.text = l.text := (congrArg TLine.text e :)
  have e2 : l'.isLabel = l.isLabel := (congrArg TLine.isLabel e :)
  have e3 : l'.label = l.label := (congrArg TLine.label e :)
  have e4 : l'.isInternalLabel = l.isInternalLabel := (congrArg TLine.isInternalLabel e :)
  have e5 : l'.isAssignment = l.isAssignment := (congrArg TLine.isAssignment e :)
  have e6 : l'.isData = l.isData := (congrArg TLine.isData e :)
  have e7 : l'.hasOpcode = l.hasOpcode := (congrArg TLine.hasOpcode e :)
  have e8 : l'.isDirective = l.isDirective := (congrArg TLine.isDirective e :)
  have e9 : l'.isInlineAsm = l.isInlineAsm := (congrArg TLine.isInlineAsm e :)
  have e10 : l'.closestParentLabel = l.closestParentLabel := (congrArg TLine.closestParentLabel e :)
  constructor
  · rw [e1]; exact h1
  · rw [e2, e3]; exact h2
  · rw [e2, e3, e4]; exact h3
  · rw [e2, e3, e5]; exact h4
  · rw [e6]; exact h5
  · rw [e7]; exact h6
  · rw [e2, e6, e8]; exact h7
  · rw [e9]; exact h8
  · rw [e3, e5, e10]; exact h9
  · rw [e2, e6, e7]; exact hr

/-- The lines of the result. -/
theorem finalHeld {L : Locale} {f : Filter} {s : Str} {p : TParser} (h : TextResult L f s p) : ∃ zs : List (TLine × Nat),
    zs.map (·.1) = p.lines.filter (fun l => l.text ≠ []) ∧ zs.Pairwise (fun a b => a.2 < b.2) ∧
    (∀ z ∈ zs, ∃ t, (seen f s)[z.2]? = some t ∧ t.Kept f ∧
      Describes (seen f s) (fun a => (p.labelsDefined.lookup a).isSome) z.2 t z.1) ∧
    (f.unusedLabels = false → ∀ k t, (seen f s)[k]? = some t → t.Kept f → (∃ z ∈ zs, z.2 = k) ∨
      (f.compatmode = true ∧ f.directives = true ∧ ¬ t.Info ∧ StartsWithOneOf dataDirectives t.text)) := by
  obtain ⟨o, n, v, v', h⟩ := h
  obtain ⟨us, ls, lines, fl, ub, rfl, h1, sub, h2, h3, h4⟩ := outcome h
  obtain ⟨zr, hm, hpair, hall, htold⟩ := readHeld L f s
  generalize hr : (TParser.init f).readStream L s = r at *
  have hm : zr.map (·.1) = (r.lines.map TLine.bare).filter fun l => l.text ≠ [] := hm
  -- through `noUse`
  have e1 : (zr.map fun z => (z.1.noUse, z.2)).map (·.1) = (ls.filter fun l => l.text ≠ []).map fun l => l.noUse.bare := by
    have a1 : (ls.filter fun l => l.text ≠ []).map (fun l => l.noUse.bare) =
        ((ls.map TLine.noUse).map TLine.bare).filter fun l => l.text ≠ [] := by
      rw [List.map_map, List.filter_map]; rfl
    have a2 : ((r.lines.map TLine.noUse).map TLine.bare).filter (fun l => l.text ≠ []) =
        ((r.lines.map TLine.bare).filter fun l => l.text ≠ []).map TLine.noUse := by
      rw [List.map_map, List.filter_map, List.filter_map, List.map_map]; rfl
    rw [a1, h1, a2, ← hm, List.map_map, List.map_map]; rfl
  obtain ⟨zl, m1, m2⟩ := pull_map e1
  have il : ∀ z ∈ zl, ∃ y ∈ zr, z.1.noUse.bare = y.1.noUse ∧ z.2 = y.2 := by
    intro z hz
    have : (z.1.noUse.bare, z.2) ∈ zl.map fun z => (z.1.noUse.bare, z.2) := List.mem_map_of_mem hz
    rw [m2] at this
    obtain ⟨y, hy, e⟩ := List.mem_map.1 this
    obtain ⟨ea, eb⟩ := Prod.mk.inj e
    exact ⟨y, hy, ea.symm, eb.symm⟩
  have li : ∀ y ∈ zr, ∃ z ∈ zl, z.2 = y.2 := by
    intro y hy
    have : (y.1.noUse, y.2) ∈ zr.map fun z => (z.1.noUse, z.2) := List.mem_map_of_mem hy
    rw [← m2] at this
    obtain ⟨z, hz, e⟩ := List.mem_map.1 this
    exact ⟨z, hz, (Prod.mk.inj e).2⟩
  have pl : zl.Pairwise fun a b => a.2 < b.2 := by
    have : (zr.map fun z => (z.1.noUse, z.2)).Pairwise fun a b => a.2 < b.2 := List.pairwise_map.2 hpair
    rw [← m2] at this
    have := List.pairwise_map.1 this
    exact this
  -- the sublist
  have hsub : (sub.filter fun l => l.text ≠ []).Sublist (zl.map (·.1)) := by rw [m1]; exact h2.filter _
  obtain ⟨zs, hsub', e2⟩ := List.sublist_map_iff.1 hsub
  refine ⟨zs.map fun z => (r.finishKept z.1, z.2), ?_, ?_, ?_, ?_⟩
  · show _ = lines.filter _
    rw [h3, List.filter_map, List.map_map]
    have : sub.filter ((fun l : TLine => decide (l.text ≠ [])) ∘ r.finishKept) = sub.filter fun l => l.text ≠ [] :=
      List.filter_congr fun l _ => by simp [finishKept_text]
    rw [this, e2, List.map_map]; rfl
  · rw [List.pairwise_map]
    exact pl.sublist hsub'
  · intro z hz
    obtain ⟨w, hw, rfl⟩ := List.mem_map.1 hz
    obtain ⟨y, hy, ea, eb⟩ := il w (hsub'.subset hw)
    obtain ⟨t, ht, htold⟩ := htold y hy
    rw [show (r.finishKept w.1, w.2).2 = y.2 from eb]
    obtain ⟨t', ht', hk⟩ := (hall y.2).1 ⟨y, hy, rfl⟩
    obtain rfl : t' = t := by rw [ht] at ht'; exact (Option.some.inj ht').symm
    refine ⟨t', ht, hk, htold.rest.congr ?_ ?_⟩
    · show (r.finishKept w.1).core.bare = y.1.core.bare
      rw [finishKept_core]
      have b : y.1.bare = y.1 := by
        have : y.1 ∈ zr.map (·.1) := List.mem_map_of_mem hy
        rw [hm] at this
        obtain ⟨q, -, e⟩ := List.mem_map.1 (List.mem_filter.1 this).1
        rw [← e]; rfl
      have := congrArg (fun l => l.core.bare) ea
      exact this
    · show (r.finishKept w.1).labels.map (·.name) = _
      have el : w.1.labels = y.1.labels := (congrArg TLine.labels ea :)
      rw [finishKept_labels, el, htold.refs]
      split
      · rw [← usedLabels_names L, List.filter_map]; rfl
      · rfl
  · intro hu k t ht hk
    obtain ⟨y, hy, rfl⟩ := (hall k).2 ⟨t, ht, hk⟩
    obtain ⟨z, hz, e⟩ := li y hy
    cases hc : f.compatmode && f.directives with
    | false =>
      have : sub = ls := (h4 hu).2 hc
      rw [this, ← m1] at e2
      have hlen : zs.length = zl.length := by rw [← List.length_map (f := fun z : TLine × Nat => z.1) (as := zl), e2, List.length_map]
      have := hsub'.eq_of_length hlen
      subst this
      exact .inl ⟨_, List.mem_map_of_mem hz, e⟩
    | true =>
      obtain ⟨c1, c2⟩ := Bool.and_eq_true_iff.1 hc
      cases hloose : z.1.looseData with
      | true =>
        obtain ⟨y', hy', ea, eb⟩ := il z hz
        obtain ⟨t', ht', told⟩ := htold y' hy'
        obtain rfl : t' = t := by
          rw [← eb, e, ht] at ht'
          exact (Option.some.inj ht').symm
        refine .inr ⟨c1, c2, told.rest.data.1 ?_⟩
        have : z.1.isData = true := by
          unfold TLine.looseData at hloose
          exact (Bool.and_eq_true_iff.1 hloose).1
        exact (congrArg TLine.isData ea :).symm.trans this
      | false =>
        have key : zs.filter (fun z => !z.1.looseData) = zl.filter fun z => !z.1.looseData := by
          refine (hsub'.filter _).eq_of_length ?_
          have len : ∀ q : List (TLine × Nat), (q.filter fun z => !z.1.looseData).length =
              ((q.map (·.1)).filter fun l => !l.looseData).length := by
            intro q
            rw [List.filter_map, List.length_map]; rfl
          rw [len, len, ← e2, m1]
          have comm : ∀ q : List TLine, ((q.filter fun l => l.text ≠ []).filter fun l => !l.looseData) =
              ((q.filter fun l => !l.looseData).filter fun l => l.text ≠ []) := by
            intro q
            rw [List.filter_filter, List.filter_filter]
            exact List.filter_congr fun l _ => Bool.and_comm _ _
          rw [comm, comm, (h4 hu).1]
        have : z ∈ zl.filter fun z => !z.1.looseData := List.mem_filter.2 ⟨hz, by rw [hloose]; rfl⟩
        rw [← key] at this
        exact .inl ⟨_, List.mem_map_of_mem (List.mem_filter.1 this).1, e⟩

end AsmParser
