/-
Helper lemmas: source positions and sections while reading in text mode.
-/
import Verif.Proofs.Recognize

namespace AsmParser
open Re Regexes

attribute [local irreducible] Re.search Re.fullMatch

/-! ### Scanning -/

theorem prefix_drop {w line : Str} (hw : ∀ c ∈ w.head?, ¬ Blank c) (hne : w ≠ []) :
    w <+: line.dropWhile (fun c => c = 32 || c = 9) ↔ ∃ bs r, Blanks bs ∧ line = bs ++ w ++ r := by
  constructor
  · rintro ⟨r, e⟩
    refine ⟨line.takeWhile fun c => c = 32 || c = 9, r, ?_, ?_⟩
    · intro c hc
      have h := mem_takeWhile hc
      have h : c = 32 ∨ c = 9 := by simpa using h
      exact h
    · rw [List.append_assoc, e]
      exact (List.takeWhile_append_dropWhile).symm
  · rintro ⟨bs, r, hb, rfl⟩
    refine ⟨r, ?_⟩
    rw [List.append_assoc, List.dropWhile_append_of_pos (by
      intro c hc
      have h : c = 32 ∨ c = 9 := hb c hc
      simpa using h)]
    obtain ⟨d, w, rfl⟩ := List.exists_cons_of_ne_nil hne
    have hd : ¬ (d = 32 ∨ d = 9) := hw d rfl
    rw [List.cons_append, List.dropWhile_cons_of_neg (by simpa using hd)]

theorem startsWithWord_two (a b line : Str) (ha : ∀ c ∈ a.head?, ¬ Blank c) (ha' : a ≠ []) (hb : ∀ c ∈ b.head?, ¬ Blank c) (hb' : b ≠ []) :
    startsWithWord [a, b] line = true ↔
      (∃ bs r, Blanks bs ∧ line = bs ++ a ++ r) ∨ ∃ bs r, Blanks bs ∧ line = bs ++ b ++ r := by
  rw [← prefix_drop ha ha', ← prefix_drop hb hb']
  unfold startsWithWord
  simp only [List.any_cons, List.any_nil, Bool.or_false, Bool.or_eq_true, List.isPrefixOf_iff_prefix]

theorem startsAsm (line : Str) : (startAppBlock line || startAsmNesting line) = startsWithWord [b! "#APP", b! "# Begin ASM"] line := by
  rw [Bool.eq_iff_iff, Bool.or_eq_true, startAppBlock_iff, startAsmNesting_iff,
    startsWithWord_two _ _ _ (by intro c hc; simp at hc; subst hc; unfold Blank; decide) (by simp)
      (by intro c hc; simp at hc; subst hc; unfold Blank; decide) (by simp)]

theorem endsAsm (line : Str) : (endAppBlock line || endAsmNesting line) = startsWithWord [b! "#NO_APP", b! "# End ASM"] line := by
  rw [Bool.eq_iff_iff, Bool.or_eq_true, endAppBlock_iff, endAsmNesting_iff,
    startsWithWord_two _ _ _ (by intro c hc; simp at hc; subst hc; unfold Blank; decide) (by simp)
      (by intro c hc; simp at hc; subst hc; unfold Blank; decide) (by simp)]

theorem nesting_scan (n : Int) (raw : Str) : nesting n raw =
    if startsWithWord [b! "#APP", b! "# Begin ASM"] raw then n + 1
    else if startsWithWord [b! "#NO_APP", b! "# End ASM"] raw then n - 1 else n := by
  unfold nesting
  rw [startsAsm, endsAsm]

theorem white_scan (raw : Str) : isEmptyOrJustWhitespace raw = raw.all fun c => c = 32 || c = 9 := by
  rw [Bool.eq_iff_iff, blanks_white, List.all_eq_true]
  constructor
  · intro h c hc
    have : c = 32 ∨ c = 9 := h c hc
    simpa using this
  · intro h c hc
    have := h c hc
    show c = 32 ∨ c = 9
    simpa using this

/-! ### What `eol` does to the source state -/

/-- The parts of the state that have to do with source positions and sections. -/
def TParser.src (p : TParser) : TSource × View × View × List (Int × Str) :=
  (p.st.currentSourceRef, p.st.currentSourceFile, p.st.currentSection, p.files)

/-- Is the line part of a block comment that is skipped? -/
def TParser.inBlock (p : TParser) : Bool := p.filter.commentOnly && (p.st.hasStartedCommentBlock || startCommentBlock p.st.text)

/-- The line after it has been finished. -/
structure Pushed (p : TParser) (ln : TLine) : Prop where
  text : ln.text = p.newLine.text
  source : ln.source = p.sec.st.currentSourceRef
  sect : ln.sect = p.sec.st.currentSection

/-- The parts of the state that have to do with CUDA: in code, in parameters. -/
def TParser.nv (p : TParser) : Bool × Bool := (p.st.inNvccCode, p.st.inNvccDef)

/-- Is the line a CUDA function header? -/
def TParser.header (p : TParser) : Bool :=
  !p.handled && isHeader p.newLine.text

/-- Is the line dropped as a comment? -/
def TParser.isComment (p : TParser) : Bool :=
  p.filter.commentOnly && (if p.st.inNvccCode then isJustNvccComments p.st.text else isJustComments p.st.text)

/-- Is the line dropped as a directive, outside the parameters of a CUDA function? -/
def TParser.dropDir (p : TParser) : Bool :=
  p.filter.directives && !isInstOpcode p.newLine.text &&
    (p.handled || (isDirective p.newLine.text && (getLabelFromLine p.newLine.text).isNone && !isDataDefn p.newLine.text))

inductive EolSrc (p p' : TParser) : Prop
  | block (h : p.inBlock = true) (lines : p'.lines = p.lines) (src : p'.src = p.src) (text : p'.st.text = [])
      (asm : p'.st.inCustomAssembly = p.st.inCustomAssembly) (nv : p'.nv = p.nv)
  | blank (h : p.inBlock = false) (h1 : isEmptyOrJustWhitespace p.st.text = true)
      (lines : p'.lines = (p.start.maybeAddBlank (p.nextId + 1)).lines) (src : p'.src = p.src)
      (text : p'.st.text = p.st.text) (asm : p'.st.inCustomAssembly = p.st.inCustomAssembly) (nv : p'.nv = p.nv)
  | proc (h : p.inBlock = false) (h1 : isEmptyOrJustWhitespace p.st.text = false) (h2 : p.atProc = true) (h3 : p.filter.directives = true)
      (lines : p'.lines = p.pre.lines) (src : p'.src = p.src) (text : p'.st.text = [])
      (asm : p'.st.inCustomAssembly = nesting p.st.inCustomAssembly p.st.text) (nv : p'.nv = p.nv)
  | line (h : p.inBlock = false) (h1 : isEmptyOrJustWhitespace p.st.text = false) (h2 : p.filter.directives = true → p.atProc = false)
      (lines : p'.lines = p.sec.lines ∨ ∃ ln, p'.lines = p.sec.lines ++ [ln] ∧ Pushed p ln) (src : p'.src = p.sec.src) (text : p'.st.text = [])
      (asm : p'.st.inCustomAssembly = nesting p.st.inCustomAssembly p.st.text)
      (shown : p.filter.libraryFunctions = false →
        (p'.lines = p.sec.lines ↔ (p.isComment || (!(p.st.inNvccDef || p.header) && p.dropDir)) = true))
      (nv : p.filter.libraryFunctions = false →
        p'.nv = if p.isComment then p.nv else (p.st.inNvccCode || p.header, (p.st.inNvccDef || p.header) && !isCudaEndDef p.newLine.text))
      (nv' : p.filter.libraryFunctions = true → p'.nv = p.nv ∧ p'.lines = p.sec.lines)

theorem inBlock_false {p : TParser}
    (h : p.filter.commentOnly = true → p.st.hasStartedCommentBlock = false ∧ startCommentBlock p.st.text = false) : p.inBlock = false := by
  unfold TParser.inBlock
  cases hc : p.filter.commentOnly with
  | false => rfl
  | true =>
    obtain ⟨h1, h2⟩ := h hc
    rw [h1, h2]; rfl

theorem sec_asm (p : TParser) : p.sec.st.inCustomAssembly = nesting p.st.inCustomAssembly p.st.text := by
  obtain ⟨⟨_, _, _, _, _, _, _, _, e⟩, -, -⟩ := frame_sec p
  rw [e]; rfl

/-- Handling the label does not touch the lines and the source state. -/
theorem lab_src (p : TParser) : p.lab.1.lines = p.sec.lines ∧ p.lab.1.src = p.sec.src ∧
    p.lab.1.st.inCustomAssembly = nesting p.st.inCustomAssembly p.st.text := by
  have ha := sec_asm p
  unfold TParser.lab
  split
  · exact ⟨rfl, rfl, ha⟩
  · rcases handleLabelDefinition_frame p.sec' p.newLine with ⟨l, a, c, st', st, g, f, nd, nc, pl', pp, hs, hnd, hnc⟩ | ⟨g, f⟩
    · rw [f]
      subst hs
      exact ⟨rfl, rfl, ha⟩
    · rw [f]
      exact ⟨rfl, rfl, ha⟩

theorem sec_nv (p : TParser) : p.sec.nv = p.nv := by
  obtain ⟨⟨_, _, _, _, _, _, _, _, e⟩, -, -⟩ := frame_sec p
  rw [e]; rfl

/-- The line and the CUDA state after handling the label. -/
theorem lab_nv (p : TParser) : p.lab.1.nv = (p.st.inNvccCode || p.header, p.st.inNvccDef || p.header) ∧
    p.lab.2.isLabel = (!p.handled && (getLabelFromLine p.newLine.text).isSome) ∧
    p.lab.2.isData = (!p.handled && isDataDefn p.newLine.text) ∧
    p.dirLine.isDirective = (p.handled || isDirective p.newLine.text) := by
  have hs : p.sec'.nv = p.nv := sec_nv p
  have h1 : p.sec'.st.inNvccCode = p.st.inNvccCode := congrArg (·.1) hs
  have h2 : p.sec'.st.inNvccDef = p.st.inNvccDef := congrArg (·.2) hs
  unfold TParser.dirLine TParser.lab TParser.header isHeader
  cases hh : p.handled with
  | true =>
    simp only [if_true, Bool.not_true, Bool.false_and, Bool.or_false, Bool.true_or]
    refine ⟨hs, ?_, ?_, ?_⟩ <;> first | rfl | trivial
  | false =>
    simp only [Bool.false_eq_true, if_false, Bool.not_false, Bool.true_and, Bool.false_or]
    rcases handleLabelDefinition_frame p.sec' p.newLine with ⟨l, a, c, st', st, g, f, nd, nc, pl', pp, hs', hnd, hnc⟩ | ⟨g, f⟩
    · rw [f, g]
      subst hs'
      refine ⟨?_, by first | rfl | trivial, by first | rfl | trivial, by first | rfl | trivial⟩
      unfold TParser.nv
      simp only
      rw [hnd, hnc, h1, h2]
    · rw [f, g]
      refine ⟨?_, by first | rfl | trivial, by first | rfl | trivial, by first | rfl | trivial⟩
      simp only [Bool.or_false]
      exact hs

theorem isComment_of {p : TParser} (h : p.filter.commentOnly = true → (p.st.inNvccCode = false → isJustComments p.st.text = false) ∧
        (p.st.inNvccCode = true → isJustNvccComments p.st.text = false)) : p.isComment = false := by
  unfold TParser.isComment
  cases hc : p.filter.commentOnly with
  | false => rfl
  | true =>
    obtain ⟨h1, h2⟩ := h hc
    cases hn : p.st.inNvccCode with
    | false => simpa using h1 hn
    | true => simpa using h2 hn

theorem append_ne_self {α : Type} (l : List α) (a : α) : l ++ [a] ≠ l := by
  intro h
  have := congrArg List.length h
  simp at this

theorem eol_src (L : Locale) (p : TParser) (hb : Basic p) : EolSrc p (p.eol L) := by
  refine eol_elim L p hb (P := EolSrc p) ?_ ?_ ?_ ?_ ?_ ?_ ?_
  · intro h1 h2
    refine .block ?_ rfl rfl rfl rfl rfl
    unfold TParser.inBlock
    rw [h1, Bool.true_and, Bool.or_eq_true]
    exact h2
  · intro h0 h1
    rcases maybeAddBlank_cases p.start (p.nextId + 1) with e | ⟨l, -, -, e⟩
    · refine .blank (inBlock_false h0) h1 rfl ?_ ?_ ?_ ?_ <;> rw [e] <;> rfl
    · refine .blank (inBlock_false h0) h1 rfl ?_ ?_ ?_ ?_ <;> rw [e] <;> rfl
  · intro h0 h1 h2 h3
    have e : p.pre.clear.src = p.src ∧ p.pre.clear.st.inCustomAssembly = nesting p.st.inCustomAssembly p.st.text ∧
        p.pre.clear.nv = p.nv := by
      unfold TParser.pre
      rw [if_pos h2]
      exact ⟨rfl, rfl, rfl⟩
    exact .proc (inBlock_false h0) h1 h2 h3 rfl e.1 rfl e.2.1 e.2.2
  · intro h0 h1 h2 h3
    refine .line (inBlock_false h0) h1 h2 (.inl rfl) rfl rfl (sec_asm p) ?_ ?_ fun _ => ⟨sec_nv p, rfl⟩
    · intro h; rw [h3] at h; exact absurd h (by simp)
    · intro h; rw [h3] at h; exact absurd h (by simp)
  · intro h0 h1 h2 h3 h4 h5
    have hc : p.isComment = true := by
      unfold TParser.isComment
      rw [h4, Bool.true_and]
      rcases h5 with ⟨h5, h6⟩ | ⟨h5, h6⟩
      · rw [h6]; exact h5
      · rw [h6]; exact h5
    refine .line (inBlock_false h0) h1 h2 (.inl rfl) rfl rfl (sec_asm p) ?_ ?_ ?_
    · intro _; rw [hc]; exact ⟨fun _ => rfl, fun _ => rfl⟩
    · intro _; rw [hc]; exact sec_nv p
    · intro h; rw [h3] at h; exact absurd h (by simp)
  · intro h0 h1 h2 h3 hd hl hdat hdir hin hf hcom
    obtain ⟨us, sd, e⟩ := extractDirective_frame p.lab.1 p.newLine.id p.newLine.text
    simp only [e]
    obtain ⟨e1, e2, e3⟩ := lab_src p
    obtain ⟨n1, n2, n3, n4⟩ := lab_nv p
    have hc := isComment_of hcom
    have n5 : (p.st.inNvccDef || p.header) = false := (congrArg (·.2) n1).symm.trans hd
    rw [hl] at n2
    rw [hdat] at n3
    rw [hdir] at n4
    have hdd : p.dropDir = true := by
      unfold TParser.dropDir
      rw [hin, hf]
      cases hh : p.handled with
      | true => rfl
      | false =>
        rw [hh] at n2 n3 n4
        simp only [Bool.not_false, Bool.true_and, Bool.false_or] at n2 n3 n4
        rw [← n4, ← n3]
        simp only [Bool.not_false, Bool.true_and, Bool.false_or, Bool.and_true]
        cases hg : getLabelFromLine p.newLine.text with
        | none => rfl
        | some x => rw [hg] at n2; simp at n2
    refine .line (inBlock_false h0) h1 h2 (.inl e1) e2 rfl e3 ?_ ?_ ?_
    · intro _
      rw [hc, n5, hdd]
      exact ⟨fun _ => rfl, fun _ => e1⟩
    · intro _
      rw [hc, n5]
      simp only [Bool.false_eq_true, if_false, Bool.false_and]
      refine Eq.trans ?_ (n1.trans ?_)
      · rfl
      · rw [n5]
    · intro h; rw [h3] at h; exact absurd h (by simp)
  · intro h0 h1 h2 h3 hcom q ln hq
    have hc := isComment_of hcom
    obtain ⟨n1, n2, n3, n4⟩ := lab_nv p
    have n1a : p.lab.1.st.inNvccCode = (p.st.inNvccCode || p.header) := congrArg (·.1) n1
    have n1b : p.lab.1.st.inNvccDef = (p.st.inNvccDef || p.header) := congrArg (·.2) n1
    obtain ⟨us, sd, nd, eq, hnd⟩ : ∃ us sd nd, q = { p.lab.1 with usage := us, stored := sd, st := { p.lab.1.st with inNvccDef := nd } } ∧
        nd = ((p.st.inNvccDef || p.header) && !isCudaEndDef p.newLine.text) := by
      rcases hq with ⟨hd, -, rfl⟩ | ⟨hd, -, -, -, -, -, -, rfl⟩ | ⟨hd, -, -, -, -, rfl⟩ | ⟨hd, -, -, rfl⟩
      · rw [n1b] at hd
        split
        · rename_i he
          exact ⟨_, _, _, rfl, by rw [he, hd]; rfl⟩
        · rename_i he
          exact ⟨_, _, _, rfl, by rw [n1b, hd]; simpa using he⟩
      · obtain ⟨us, sd, e⟩ := extractDirective_frame p.lab.1 p.newLine.id p.newLine.text
        rw [e]; rw [n1b] at hd; exact ⟨_, _, _, rfl, by rw [n1b, hd]; rfl⟩
      · rw [n1b] at hd; exact ⟨_, _, _, rfl, by rw [n1b, hd]; rfl⟩
      · rw [n1b] at hd; exact ⟨_, _, _, rfl, by rw [n1b, hd]; rfl⟩
    have hdrop : (!(p.st.inNvccDef || p.header) && p.dropDir) = false := by
      rw [← n1b]
      rcases hq with ⟨hd, -, -⟩ | ⟨hd, -, -, -, -, -, hf, -⟩ | ⟨hd, hl, hdat, -, hor, -⟩ | ⟨hd, hor, -, -⟩
      · rw [hd]; rfl
      · unfold TParser.dropDir; rw [hf]; simp
      · unfold TParser.dropDir
        rcases hor with hor | hor
        · rw [hor] at n4
          have n4 := n4.symm
          rw [Bool.or_eq_false_iff] at n4
          rw [n4.1, n4.2]; simp
        · rw [hor]; simp
      · unfold TParser.dropDir
        rcases hor with hor | hor
        · rw [hor] at n2
          have n2 := n2.symm
          rw [Bool.and_eq_true, Bool.not_eq_true'] at n2
          rw [n2.1]
          obtain ⟨x, hx⟩ := Option.isSome_iff_exists.1 n2.2
          rw [hx]; simp
        · rw [hor] at n3
          have n3 := n3.symm
          rw [Bool.and_eq_true, Bool.not_eq_true'] at n3
          rw [n3.1, n3.2]; simp
    have ht : ln.text = p.newLine.text := by
      rcases hq with ⟨-, rfl, -⟩ | ⟨-, -, -, rfl, -⟩ | ⟨-, -, -, rfl, -⟩ | ⟨-, -, rfl, -⟩
      · exact lab_text p
      · exact dirLine_text p
      · exact dirLine_text p
      · exact lab_text p
    obtain ⟨e1, e2, e3, e0⟩ : q.lines = p.sec.lines ∧ q.src = p.sec.src ∧
        q.st.inCustomAssembly = nesting p.st.inCustomAssembly p.st.text ∧
        q.nv = (p.st.inNvccCode || p.header, (p.st.inNvccDef || p.header) && !isCudaEndDef p.newLine.text) := by
      rw [eq]
      obtain ⟨a, b, c⟩ := lab_src p
      refine ⟨a, b, c, ?_⟩
      rw [← hnd, ← n1a]; rfl
    clear hq eq
    obtain ⟨us', sd', pl', hf⟩ := eolFinish_frame L q ln
    rw [hf]
    have e4 := congrArg (·.1) e2
    have e5 := congrArg (·.2.2.1) e2
    refine .line (inBlock_false h0) h1 h2 (.inr ⟨finLine L q ln, by rw [e1], ⟨ht, e4, e5⟩⟩) e2 rfl e3 ?_ ?_ ?_
    · intro _
      rw [hc, hdrop, e1]
      exact ⟨fun h => (append_ne_self _ _ h).elim, fun h => absurd h (by simp)⟩
    · intro _
      rw [hc]; exact e0
    · intro h; rw [h3] at h; exact absurd h (by simp)

/-! ### The state after some lines -/

theorem sectionAt_snoc {ts : List Seen} {t : Seen} {n : Str} :
    SectionAt (ts ++ [t]) n ↔ SwitchesTo t.text n ∨ ((∀ m, ¬ SwitchesTo t.text m) ∧ SectionAt ts n) := by
  constructor
  · rintro (⟨rfl, h⟩ | ⟨a, x, b, e, h1, h2⟩)
    · exact .inr ⟨h t (by simp), .inl ⟨rfl, fun z hz => h z (by simp [hz])⟩⟩
    rcases List.eq_nil_or_concat b with rfl | ⟨b, y, rfl⟩
    · obtain ⟨rfl, hx⟩ := List.append_inj' e rfl
      simp only [List.cons.injEq, and_true] at hx
      subst hx
      exact .inl h1
    · have e' : ts ++ [t] = (a ++ x :: b) ++ [y] := by rw [e]; simp
      obtain ⟨rfl, hx⟩ := List.append_inj' e' rfl
      simp only [List.cons.injEq, and_true] at hx
      subst hx
      exact .inr ⟨h2 t (by simp), .inr ⟨a, x, b, rfl, h1, fun z hz => h2 z (by simp [hz])⟩⟩
  · rintro (h | ⟨h, ⟨rfl, h2⟩ | ⟨a, x, b, rfl, h2, h4⟩⟩)
    · exact .inr ⟨ts, t, [], rfl, h, by simp⟩
    · refine .inl ⟨rfl, fun z hz => ?_⟩
      rcases List.mem_append.1 hz with hz | hz
      · exact h2 z hz
      · rw [List.mem_singleton] at hz; subst hz; exact h
    · refine .inr ⟨a, x, b ++ [t], by simp, h2, fun z hz => ?_⟩
      rcases List.mem_append.1 hz with hz | hz
      · exact h4 z hz
      · rw [List.mem_singleton] at hz; subst hz; exact h

theorem SectionAt.unique {ts : List Seen} {a b : Str} : SectionAt ts a → SectionAt ts b → a = b := by
  induction ts using snoc_induction with
  | nil =>
    rintro (⟨rfl, -⟩ | ⟨x, y, z, e, -⟩) (⟨rfl, -⟩ | ⟨x, y, z, e, -⟩) <;> first | rfl | simp at e
  | snoc ts t ih =>
    rw [sectionAt_snoc, sectionAt_snoc]
    rintro (h | ⟨h, h1⟩) (h' | ⟨h', h2⟩)
    · exact h.unique h'
    · exact (h' _ h).elim
    · exact (h _ h').elim
    · exact ih h1 h2

/-- The source state after the texts `ts`. -/
structure SrcState (ts : List Seen) (p : TParser) : Prop where
  pos : ∃ x, PositionAt ts x ∧ Holds x p.st.currentSourceRef
  files : ∀ i name, p.files.lookup i = some name ↔ FileNamed ts i name
  d2 : D2FileNamed ts p.st.currentSourceFile.s
  sect : SectionAt ts p.st.currentSection.s

theorem SrcState.congr {ts : List Seen} {p p' : TParser} (h : SrcState ts p) (e : p'.src = p.src) : SrcState ts p' := by
  have e1 : p'.st.currentSourceRef = p.st.currentSourceRef := congrArg (·.1) e
  have e2 : p'.st.currentSourceFile = p.st.currentSourceFile := congrArg (·.2.1) e
  have e3 : p'.st.currentSection = p.st.currentSection := congrArg (·.2.2.1) e
  have e4 : p'.files = p.files := congrArg (·.2.2.2) e
  exact ⟨by rw [e1]; exact h.pos, by rw [e4]; exact h.files, by rw [e2]; exact h.d2, by rw [e3]; exact h.sect⟩

theorem pre_src (p : TParser) : p.pre.src = p.src ∧ p.pre.st.inNvccCode = p.st.inNvccCode := by
  unfold TParser.pre
  split <;> exact ⟨rfl, rfl⟩

theorem handled_not_ends (p : TParser) (ln : TLine) (h : (p.handleSourceDirectives ln).2 = true) : ¬ EndsBlock ln.text :=
  fun he => ((handleSourceDirectives_iff p ln).1 h).1 (.inl he)

theorem handleSourceDirectives_sect (p : TParser) (ln : TLine) : (p.handleSourceDirectives ln).1.st.currentSection = p.st.currentSection := by
  unfold TParser.handleSourceDirectives
  split
  · rfl
  · split
    · rename_i h
      unfold TParser.handleFiledef at h
      rw [Option.map_eq_some_iff] at h
      obtain ⟨d, -, rfl⟩ := h; rfl
    · split
      · rename_i h
        unfold TParser.handleSource at h
        generalize getSourceRef ln.text = r at h
        simp only at h
        split at h
        · simp only [Option.some.injEq] at h; subst h; rfl
        · exact absurd h (by simp)
      · split
        · rename_i h
          unfold TParser.handleStabs at h
          rw [Option.map_eq_some_iff] at h
          obtain ⟨d, -, rfl⟩ := h
          split
          · rfl
          · split <;> rfl
        · split
          · rename_i h
            unfold TParser.handle6502 at h
            rw [Option.map_eq_some_iff] at h
            obtain ⟨d, -, rfl⟩ := h
            split <;> rfl
          · split
            · rename_i h
              unfold TParser.handleD2 at h
              split at h
              · simp only [Option.some.injEq] at h; subst h; rfl
              · rw [Option.map_eq_some_iff] at h
                obtain ⟨d, -, rfl⟩ := h; rfl
            · rfl

/-- After the source directives. -/
theorem StepOk.state {ts : List Seen} {t : Seen} {p q : TParser} (h : StepOk ts t p q) (hp : SrcState ts p) :
    (∃ x, PositionAt (ts ++ [t]) x ∧ Holds x q.st.currentSourceRef) ∧
    (∀ i name, q.files.lookup i = some name ↔ FileNamed (ts ++ [t]) i name) ∧
    D2FileNamed (ts ++ [t]) q.st.currentSourceFile.s := by
  refine ⟨?_, ?_, ?_⟩
  · rcases h.pos with ⟨x, h1, h2⟩ | ⟨h1, h2⟩
    · exact ⟨x, .set h1, h2⟩
    · obtain ⟨x, h3, h4⟩ := hp.pos
      exact ⟨x, .keep h3 h1, by rw [h2]; exact h4⟩
  · intro i name
    rw [fileNamed_snoc]
    rcases h.files with ⟨j, nm, h1, h2, h3⟩ | ⟨h1, h2⟩
    · rw [h3, lookup_assocSet]
      by_cases hij : i = j
      · subst hij
        rw [if_pos rfl]
        constructor
        · intro e
          simp only [Option.some.injEq] at e
          subst e
          exact .inl ⟨h1, h2⟩
        · rintro (⟨-, h4⟩ | ⟨h4, -⟩)
          · rw [(h4.unique h2).2]
          · exact (h4 h1 _ h2).elim
      · rw [if_neg hij, hp.files]
        constructor
        · exact fun h => .inr ⟨fun _ n h5 => hij (h5.unique h2).1, h⟩
        · rintro (⟨-, h4⟩ | ⟨-, h4⟩)
          · exact (hij (h4.unique h2).1).elim
          · exact h4
    · rw [h2, hp.files]
      constructor
      · exact fun h => .inr ⟨fun h' => h1 h' i, h⟩
      · rintro (⟨h3, h4⟩ | ⟨-, h4⟩)
        · exact (h1 h3 _ _ h4).elim
        · exact h4
  · rw [d2FileNamed_snoc]
    rcases h.d2 with ⟨nm, h1, h2, h3⟩ | ⟨h1, h2⟩
    · rw [h3]; exact .inl ⟨h1, h2⟩
    · rw [h2]; exact .inr ⟨h1, hp.d2⟩

/-- The line as it is seen. -/
def TParser.seen (p : TParser) : Seen :=
  ⟨p.newLine.text, p.st.inNvccCode, p.filter.libraryFunctions || p.isComment, p.st.inNvccDef,
    decide (nesting p.st.inCustomAssembly p.st.text > 0)⟩

theorem sec_state {ts : List Seen} (p : TParser) (h : SrcState ts p) :
    SrcState (ts ++ [p.seen]) p.sec ∧ Amd p.seen p.pre.lines p.sec.lines p.sec.st.currentSourceRef ∧
    ((∃ x, SetsPos ts p.seen x ∧ Holds x p.sec.st.currentSourceRef) ∨
      ((∀ x, ¬ SetsPos ts p.seen x) ∧ p.sec.st.currentSourceRef = p.st.currentSourceRef)) := by
  obtain ⟨e1, e2⟩ := pre_src p
  have h' := h.congr e1
  have hs := source_step (ts := ts) (t := p.seen) p.pre p.newLine rfl e2.symm h'.d2
  have hpos := hs.pos
  rw [show p.pre.st.currentSourceRef = p.st.currentSourceRef from congrArg (·.1) e1] at hpos
  obtain ⟨s1, s2, s3⟩ := hs.state h'
  have hsec := handleSourceDirectives_sect p.pre p.newLine
  have hamd := hs.lines
  have hne := handled_not_ends p.pre p.newLine
  have h4 := h'.sect
  rw [← hsec] at h4
  have hh : (p.pre.handleSourceDirectives p.newLine).2 = p.handled := rfl
  rw [hh] at hne
  unfold TParser.sec
  generalize (p.pre.handleSourceDirectives p.newLine).1 = q at *
  cases hd : p.handled with
  | true =>
    rw [if_neg (by simp)]
    refine ⟨⟨s1, s2, s3, ?_⟩, hamd, hpos⟩
    rw [sectionAt_snoc]
    exact .inr ⟨fun m hm => hne hd hm.ends, h4⟩
  | false =>
    rw [if_pos (by simp)]
    unfold TParser.handleSection
    cases hg : getSectionNameDef p.newLine.text with
    | some n =>
      refine ⟨⟨s1, s2, s3, ?_⟩, hamd, hpos⟩
      rw [sectionAt_snoc]
      exact .inl (getSection_iff.1 hg)
    | none =>
      refine ⟨⟨s1, s2, s3, ?_⟩, hamd, hpos⟩
      rw [sectionAt_snoc]
      exact .inr ⟨fun m hm => by
        rw [getSection_iff.2 (show SwitchesTo p.newLine.text m from hm)] at hg
        simp at hg, h4⟩

/-! ### The lines that were read -/

/-- The line `l` is the text number `k`, and its source position is the one after the text number `m`. -/
structure Numbered (ts : List Seen) (l : TLine) (k m : Nat) : Prop where
  text : ts[k]?.map Seen.text = some l.text
  sect : SectionAt (ts.take (k + 1)) l.sect.s
  le : k ≤ m
  lt : m < ts.length
  eq : l.isLabel = false → m = k
  moved : m ≠ k → ∃ t, ts[m]? = some t ∧ MovesLabels t.text
  pos : ∃ q, PositionAt (ts.take (m + 1)) q ∧ Holds q l.source

theorem Numbered.snoc {ts : List Seen} {l : TLine} {k m : Nat} (h : Numbered ts l k m) (t : Seen) : Numbered (ts ++ [t]) l k m := by
  have h1 := h.le
  have h2 := h.lt
  refine ⟨?_, ?_, h1, by simp; omega, h.eq, fun hne => ?_, ?_⟩
  · rw [List.getElem?_append_left (by omega)]; exact h.text
  · rw [List.take_append_of_le_length (by omega)]; exact h.sect
  · rw [List.getElem?_append_left (by omega)]; exact h.moved hne
  · rw [List.take_append_of_le_length (by omega)]; exact h.pos

/-- What counts for amending the labels at the end. -/
def TLine.kind (l : TLine) : Str × Bool × Bool := (l.text, l.isLabel, l.isInternalLabel)

/-- A line and its number, without the source. -/
def tagOf (z : TLine × Nat × Nat) : (Str × Bool × Bool) × Nat := (z.1.kind, z.2.1)

/-- The texts strictly between the numbers `k` and `j` are internal labels, without blank lines in front. -/
def Run (gs : List Nat) (zs : List (TLine × Nat × Nat)) (k j : Nat) : Prop :=
  ∀ i, k < i → i < j → i ∉ gs ∧ ∃ y ∈ zs, y.2.1 = i ∧ y.1.isLabel = true ∧ y.1.isInternalLabel = true

theorem Run.congr {gs : List Nat} {zs zs' : List (TLine × Nat × Nat)} {k j : Nat} (e : zs'.map tagOf = zs.map tagOf) (h : Run gs zs' k j) :
    Run gs zs k j := by
  intro i h1 h2
  obtain ⟨h3, y, hy, h4, h5, h6⟩ := h i h1 h2
  refine ⟨h3, ?_⟩
  have : tagOf y ∈ zs'.map tagOf := List.mem_map_of_mem hy
  rw [e] at this
  obtain ⟨x, hx, ex⟩ := List.mem_map.1 this
  obtain ⟨e1, e2⟩ := Prod.mk.inj ex
  have e3 : x.1.isLabel = y.1.isLabel := congrArg (·.2.1) e1
  have e4 : x.1.isInternalLabel = y.1.isInternalLabel := congrArg (·.2.2) e1
  exact ⟨x, hx, e2.trans h4, e3.trans h5, e4.trans h6⟩

/-- The lines end in a label and `n` internal labels. -/
def EndsIn (ls : List TLine) (n : Nat) : Prop :=
  ∃ a x b, ls.map TLine.kind = a ++ x :: b ∧ b.length = n ∧ x.1 ≠ [] ∧ x.2.1 = true ∧ ∀ y ∈ b, y.1 ≠ [] ∧ y.2.1 = true ∧ y.2.2 = true

/-- The lines with their numbers. -/
structure Tags (gs : List Nat) (ts : List Seen) (ls : List TLine) (zs : List (TLine × Nat × Nat)) : Prop where
  map : zs.map (·.1) = ls.filter fun l => l.text ≠ []
  good : ∀ z ∈ zs, Numbered ts z.1 z.2.1 z.2.2
  pair : zs.Pairwise fun a b => a.2.1 < b.2.1 ∧ (b.1.isLabel = false → a.2.2 ≤ b.2.1)
  next : ∀ z ∈ zs, z.1.isLabel = true → ∀ j t, z.2.1 < j → ts[j]? = some t → MovesLabels t.text → ¬ t.Ends → Run gs zs z.2.1 j → j ∉ gs →
    j ≤ z.2.2
  trail : ∀ za z zb, zs = za ++ z :: zb → z.1.isLabel = true → Run gs zs z.2.1 ts.length → ts.length ∉ gs → EndsIn ls zb.length

theorem Tags.blank {gs : List Nat} {ts : List Seen} {ls : List TLine} {zs : List (TLine × Nat × Nat)} (h : Tags gs ts ls zs) {l : TLine}
    (hl : l.text = []) : Tags (gs ++ [ts.length]) ts (ls ++ [l]) zs := by
  refine ⟨?_, h.good, h.pair, ?_, ?_⟩
  · rw [h.map, List.filter_append, List.filter_cons_of_neg (by simp [hl]), List.filter_nil, List.append_nil]
  · intro z hz h1 j t h2 h3 h4 h5 h6 h7
    exact h.next z hz h1 j t h2 h3 h4 h5 (fun i hi hj => ⟨fun hc => (h6 i hi hj).1 (List.mem_append_left _ hc), (h6 i hi hj).2⟩)
      fun hc => h7 (List.mem_append_left _ hc)
  · intro _ _ _ _ _ _ hn
    exact (hn (by simp)).elim

theorem Tags.gap {gs : List Nat} {ts : List Seen} {ls : List TLine} {zs : List (TLine × Nat × Nat)} (h : Tags gs ts ls zs) :
    Tags (gs ++ [ts.length]) ts ls zs := by
  refine ⟨h.map, h.good, h.pair, ?_, ?_⟩
  · intro z hz h1 j t h2 h3 h4 h5 h6 h7
    exact h.next z hz h1 j t h2 h3 h4 h5 (fun i hi hj => ⟨fun hc => (h6 i hi hj).1 (List.mem_append_left _ hc), (h6 i hi hj).2⟩)
      fun hc => h7 (List.mem_append_left _ hc)
  · intro _ _ _ _ _ _ hn
    exact (hn (by simp)).elim

/-- The labels at the end get other source references. -/
theorem amend_tags {a labs : List TLine} {zs : List (TLine × Nat × Nat)} (hm : zs.map (·.1) = (a ++ labs).filter fun l => l.text ≠ [])
    (hp : zs.Pairwise fun a b => a.2.1 < b.2.1 ∧ (b.1.isLabel = false → a.2.2 ≤ b.2.1))
    (hl : ∀ l ∈ labs, l.isLabel = true) (f : TLine → TLine) (g : TLine × Nat × Nat → Nat) (h1 : ∀ l, (f l).kind = l.kind) :
    ∃ za zl, zs = za ++ zl ∧ zl.map (·.1) = labs.filter (fun l => l.text ≠ []) ∧ (∀ z ∈ zl, z.1.isLabel = true) ∧
      (za ++ zl.map fun z => (f z.1, z.2.1, g z)).map (·.1) = (a ++ labs.map f).filter (fun l => l.text ≠ []) ∧
      (za ++ zl.map fun z => (f z.1, z.2.1, g z)).Pairwise (fun a b => a.2.1 < b.2.1 ∧ (b.1.isLabel = false → a.2.2 ≤ b.2.1)) ∧
      (za ++ zl.map fun z => (f z.1, z.2.1, g z)).map tagOf = zs.map tagOf ∧
      (a ++ labs.map f).map TLine.kind = (a ++ labs).map TLine.kind := by
  have t1 : ∀ l, (f l).text = l.text := fun l => (congrArg (·.1) (h1 l) :)
  have t2 : ∀ l, (f l).isLabel = l.isLabel := fun l => (congrArg (·.2.1) (h1 l) :)
  rw [List.filter_append, List.map_eq_append_iff] at hm
  obtain ⟨za, zl, rfl, e1, e2⟩ := hm
  have hlab : ∀ z ∈ zl, z.1.isLabel = true := by
    intro z hz
    have : z.1 ∈ zl.map (·.1) := List.mem_map_of_mem hz
    rw [e2] at this
    exact hl _ (List.mem_filter.1 this).1
  rw [List.pairwise_append] at hp
  obtain ⟨p1, p2, p3⟩ := hp
  refine ⟨za, zl, rfl, e2, hlab, ?_, ?_, ?_, ?_⟩
  · rw [List.map_append, List.filter_append, e1, List.map_map, List.filter_map]
    congr 1
    rw [show (fun z : TLine × Nat × Nat => z.1) ∘ (fun z => (f z.1, z.2.1, g z)) = f ∘ (·.1) from rfl, ← List.map_map, e2]
    congr 1
    refine List.filter_congr fun l _ => ?_
    simp [t1]
  · rw [List.pairwise_append]
    refine ⟨p1, ?_, ?_⟩
    · rw [List.pairwise_map]
      refine p2.imp_of_mem fun {x y} _ hy hxy => ⟨hxy.1, fun h => ?_⟩
      rw [t2, hlab y hy] at h
      exact absurd h (by simp)
    · intro x hx y hy
      obtain ⟨z, hz, rfl⟩ := List.mem_map.1 hy
      refine ⟨(p3 x hx z hz).1, fun h => ?_⟩
      rw [t2, hlab z hz] at h
      exact absurd h (by simp)
  · rw [List.map_append, List.map_append, List.map_map]
    congr 1
    refine List.map_congr_left fun z _ => ?_
    show ((f z.1).kind, z.2.1) = (z.1.kind, z.2.1)
    rw [h1]
  · rw [List.map_append, List.map_append, List.map_map]
    congr 1
    exact List.map_congr_left fun l _ => h1 l

theorem EndsIn.congr {ls ls' : List TLine} {n : Nat} (e : ls'.map TLine.kind = ls.map TLine.kind) (h : EndsIn ls n) : EndsIn ls' n := by
  unfold EndsIn at *
  rw [e]; exact h

/-- Corresponding splits. -/
theorem split_tag {zs zs' za zb : List (TLine × Nat × Nat)} {z : TLine × Nat × Nat} (e : zs'.map tagOf = zs.map tagOf)
    (h : zs' = za ++ z :: zb) : ∃ xa x xb, zs = xa ++ x :: xb ∧ xa.length = za.length ∧ xb.length = zb.length ∧ tagOf x = tagOf z := by
  subst h
  have e := e.symm
  rw [List.map_append, List.map_eq_append_iff] at e
  obtain ⟨xa, xr, rfl, e1, e2⟩ := e
  rw [List.map_cons, List.map_eq_cons_iff] at e2
  obtain ⟨x, xb, rfl, e3, e4⟩ := e2
  have l1 := congrArg List.length e1
  have l2 := congrArg List.length e4
  simp only [List.length_map] at l1 l2
  exact ⟨xa, x, xb, rfl, l1, l2, e3⟩

theorem Holds.inside {q : Option Pos} {s : TSource} (h : Holds q s) : Holds q { s with insideProc := true } := by
  cases q with
  | none => exact h
  | some q => cases q <;> exact h

theorem Holds.user {q : Option Pos} {s : TSource} (h : Holds q s) (b : Bool) : Holds q { s with isUsercode := b } := by
  cases q with
  | none => exact h
  | some q => cases q <;> exact h

theorem tagOf_label {x z : TLine × Nat × Nat} (e : tagOf x = tagOf z) : x.1.isLabel = z.1.isLabel ∧ x.2.1 = z.2.1 :=
  ⟨(congrArg (·.1.2.1) e :), (congrArg (·.2) e :)⟩

theorem Tags.pre {gs : List Nat} {ts : List Seen} {p : TParser} {zs : List (TLine × Nat × Nat)} (h : Tags gs ts p.lines zs) :
    ∃ zs', Tags gs ts p.pre.lines zs' := by
  unfold TParser.pre
  split
  · rcases mark_split p.nested with e | ⟨a, l, e1, h1, e2⟩
    · rw [e]; exact ⟨zs, h⟩
    · rw [e2]
      rw [show p.nested.lines = p.lines from rfl] at e1
      rw [e1] at h
      obtain ⟨za, zl, rfl, -, hlab, m1, m2, m3, m4⟩ := amend_tags h.map h.pair (by simp [h1])
        (fun l => { l with source := { l.source with insideProc := true } }) (fun z => z.2.2) (fun _ => rfl)
      refine ⟨_, m1, ?_, m2, ?_, ?_⟩
      · intro z hz
        rcases List.mem_append.1 hz with hz | hz
        · exact h.good z (List.mem_append_left _ hz)
        · obtain ⟨y, hy, rfl⟩ := List.mem_map.1 hz
          obtain ⟨g1, g2, g3, g4, g5, g8, q, g6, g7⟩ := h.good y (List.mem_append_right _ hy)
          exact ⟨g1, g2, g3, g4, g5, g8, q, g6, g7.inside⟩
      · intro z hz
        rcases List.mem_append.1 hz with hz | hz
        · intro a1 j t a2 a3 a4 a5 a6 a7
          exact h.next z (List.mem_append_left _ hz) a1 j t a2 a3 a4 a5 (a6.congr m3) a7
        · obtain ⟨y, hy, rfl⟩ := List.mem_map.1 hz
          intro a1 j t a2 a3 a4 a5 a6 a7
          exact h.next y (List.mem_append_right _ hy) (hlab y hy) j t a2 a3 a4 a5 (a6.congr m3) a7
      · intro xa x xb e h2 h3 h4
        obtain ⟨ya, y, yb, e', -, e5, e6⟩ := split_tag m3 e
        obtain ⟨e7, e8⟩ := tagOf_label e6
        rw [← e5]
        exact (h.trail ya y yb e' (e7.trans h2) (e8 ▸ h3.congr m3) h4).congr m4
  · exact ⟨zs, h⟩

theorem take_self {ts : List Seen} {t : Seen} : (ts ++ [t]).take (ts.length + 1) = ts ++ [t] := by
  rw [List.take_of_length_le (by simp)]

/-- After the directives of a line, before the line is stored. -/
structure Mid (gs : List Nat) (ts : List Seen) (t : Seen) (ls : List TLine) (zs : List (TLine × Nat × Nat)) : Prop where
  map : zs.map (·.1) = ls.filter fun l => l.text ≠ []
  good : ∀ z ∈ zs, Numbered (ts ++ [t]) z.1 z.2.1 z.2.2
  pair : zs.Pairwise fun a b => a.2.1 < b.2.1 ∧ (b.1.isLabel = false → a.2.2 ≤ b.2.1)
  next : ∀ z ∈ zs, z.1.isLabel = true → ∀ j t', z.2.1 < j → (ts ++ [t])[j]? = some t' → MovesLabels t'.text → ¬ t'.Ends →
    Run gs zs z.2.1 j → j ∉ gs → j ≤ z.2.2
  trail : ∀ za z zb, zs = za ++ z :: zb → z.1.isLabel = true → Run gs zs z.2.1 ts.length → ts.length ∉ gs → EndsIn ls zb.length
  lt : ∀ z ∈ zs, z.2.1 < ts.length

theorem get_snoc {ts : List Seen} {t t' : Seen} {j : Nat} (h : (ts ++ [t])[j]? = some t') : ts[j]? = some t' ∨ j = ts.length ∧ t' = t := by
  by_cases hj : j < ts.length
  · rw [List.getElem?_append_left hj] at h; exact .inl h
  · rw [List.getElem?_append_right (by omega)] at h
    have : j - ts.length = 0 := by
      cases hk : j - ts.length with
      | zero => rfl
      | succ n => rw [hk] at h; simp at h
    rw [this] at h
    simp only [List.getElem?_cons_zero, Option.some.injEq] at h
    exact .inr ⟨by omega, h.symm⟩

/-- All labels at the end that should be are amended. -/
theorem amend_all {a labs : List TLine} {n : Nat}
    (full : ∀ x, a.getLast? = some x → x.isLabel = true → ∃ y, labs.head? = some y ∧ y.isInternalLabel = false)
    (h : EndsIn (a ++ labs) n) : n < (labs.filter fun l => l.text ≠ []).length := by
  obtain ⟨c, x, b, e, rfl, h1, h2, h3⟩ := h
  rw [List.map_append] at e
  have key : b.length < labs.length := by
    rcases Nat.lt_or_ge b.length labs.length with hlt | hge
    · exact hlt
    exfalso
    rcases List.append_eq_append_iff.1 e with ⟨u, e1, e2⟩ | ⟨u, e1, e2⟩
    · -- `c = a ++ u`, `labs = u ++ x :: b`
      have := congrArg List.length e2
      simp only [List.length_map, List.length_append, List.length_cons] at this
      omega
    · -- `a = c ++ u`, `x :: b = u ++ labs`
      have hu : u ≠ [] := by
        rintro rfl
        have := congrArg List.length e2
        simp only [List.nil_append, List.length_map, List.length_cons] at this
        omega
      obtain ⟨u', w, rfl⟩ : ∃ u' w, u = u' ++ [w] := by
        rcases List.eq_nil_or_concat u with rfl | ⟨u', w, rfl⟩
        · exact (hu rfl).elim
        · exact ⟨u', w, by simp⟩
      have hw : w.2.1 = true := by
        have : w ∈ x :: b := by rw [e2]; simp
        rcases List.mem_cons.1 this with rfl | hm
        · exact h2
        · exact (h3 w hm).2.1
      rw [← List.append_assoc, List.map_eq_append_iff] at e1
      obtain ⟨a1, a2, rfl, -, e3⟩ := e1
      rw [List.map_eq_singleton_iff] at e3
      obtain ⟨l, rfl, rfl⟩ := e3
      obtain ⟨y, hy, hi⟩ := full l (by simp) hw
      obtain ⟨r, rfl⟩ : ∃ r, labs = y :: r := by
        cases labs with
        | nil => simp at hy
        | cons z r => simp only [List.head?_cons, Option.some.injEq] at hy; subst hy; exact ⟨r, rfl⟩
      have : y.kind ∈ b := by
        cases u' with
        | nil =>
          simp only [List.nil_append, List.cons_append, List.cons.injEq] at e2
          rw [e2.2]; simp
        | cons v u' =>
          simp only [List.cons_append, List.cons.injEq] at e2
          rw [e2.2]; simp
      have := (h3 _ this).2.2
      exact absurd (hi.symm.trans this) (by simp)
  rcases List.append_eq_append_iff.1 e with ⟨u, e1, e2⟩ | ⟨u, e1, e2⟩
  · have hf : (labs.filter fun l => l.text ≠ []).length = ((labs.map TLine.kind).filter fun x => x.1 ≠ []).length := by
      rw [List.filter_map, List.length_map]; rfl
    rw [hf, e2, List.filter_append, List.length_append]
    have : (x :: b).filter (fun x => x.1 ≠ []) = x :: b := by
      rw [List.filter_eq_self]
      intro y hy
      rcases List.mem_cons.1 hy with rfl | hy
      · simpa using h1
      · simpa using (h3 y hy).1
    rw [this, List.length_cons]
    omega
  · have := congrArg List.length e2
    simp only [List.length_append, List.length_map, List.length_cons] at this
    have hu : u = [] := List.eq_nil_of_length_eq_zero (by omega)
    subst hu
    have hf : (labs.filter fun l => l.text ≠ []).length = ((labs.map TLine.kind).filter fun x => x.1 ≠ []).length := by
      rw [List.filter_map, List.length_map]; rfl
    rw [List.nil_append] at e2
    rw [hf, ← e2]
    have : (x :: b).filter (fun x => x.1 ≠ []) = x :: b := by
      rw [List.filter_eq_self]
      intro y hy
      rcases List.mem_cons.1 hy with rfl | hy
      · simpa using h1
      · simpa using (h3 y hy).1
    rw [this, List.length_cons]
    omega

theorem Tags.step {gs : List Nat} {ts : List Seen} {t : Seen} {ls ls' : List TLine} {src : TSource} {zs : List (TLine × Nat × Nat)}
    (h : Tags gs ts ls zs) (ha : Amd t ls ls' src) (hq : ∃ q, PositionAt (ts ++ [t]) q ∧ Holds q src) : ∃ zs', Mid gs ts t ls' zs' := by
  have hk : ∀ z ∈ zs, z.2.1 < ts.length := fun z hz => by
    have h1 := (h.good z hz).le
    have h2 := (h.good z hz).lt
    omega
  rcases ha with ⟨rfl, hno⟩ | ⟨hm, a, labs, rfl, h1, full, rfl, -⟩
  · refine ⟨zs, h.map, fun z hz => (h.good z hz).snoc t, h.pair, ?_, h.trail, hk⟩
    intro z hz a1 j t' a2 a3 a4 a5 a6 a7
    rcases get_snoc a3 with a3 | ⟨-, rfl⟩
    · exact h.next z hz a1 j t' a2 a3 a4 a5 a6 a7
    · exact (hno a5 a4).elim
  · obtain ⟨za, zl, rfl, hzl, hlab, m1, m2, m3, m4⟩ := amend_tags h.map h.pair h1 (TLine.amend src) (fun _ => ts.length) (fun _ => rfl)
    refine ⟨_, m1, ?_, m2, ?_, ?_, ?_⟩
    · intro z hz
      rcases List.mem_append.1 hz with hz | hz
      · exact (h.good z (List.mem_append_left _ hz)).snoc t
      · obtain ⟨y, hy, rfl⟩ := List.mem_map.1 hz
        have hg := (h.good y (List.mem_append_right _ hy)).snoc t
        have := hk y (List.mem_append_right _ hy)
        obtain ⟨q, q1, q2⟩ := hq
        refine ⟨hg.text, hg.sect, Nat.le_of_lt this, by simp, fun h => ?_, fun _ => ⟨t, by simp, hm⟩, q, ?_, q2.user _⟩
        · exact absurd ((hlab y hy).symm.trans h) (by simp)
        · rw [take_self]; exact q1
    · intro z hz a1 j t' a2 a3 a4 a5 a6 a7
      rcases List.mem_append.1 hz with hz' | hz'
      · rcases get_snoc a3 with a3 | ⟨rfl, rfl⟩
        · exact h.next z (List.mem_append_left _ hz') a1 j t' a2 a3 a4 a5 (a6.congr m3) a7
        · -- it would have been amended
          exfalso
          obtain ⟨xa, xb, rfl⟩ := List.append_of_mem hz'
          have ht := h.trail xa z (xb ++ zl) (by simp) a1 (a6.congr m3) a7
          have hl := amend_all full ht
          rw [← hzl, List.length_map, List.length_append] at hl
          omega
      · obtain ⟨y, hy, rfl⟩ := List.mem_map.1 hz'
        show j ≤ ts.length
        rcases get_snoc a3 with a3 | ⟨rfl, -⟩
        · have := (List.getElem?_eq_some_iff.1 a3).1
          omega
        · exact Nat.le_refl _
    · intro xa x xb e h2 h3 h4
      obtain ⟨ya, y, yb, e', -, e5, e6⟩ := split_tag m3 e
      obtain ⟨e7, e8⟩ := tagOf_label e6
      rw [← e5]
      exact (h.trail ya y yb e' (e7.trans h2) (e8 ▸ h3.congr m3) h4).congr m4
    · intro z hz
      rcases List.mem_append.1 hz with hz | hz
      · exact hk z (List.mem_append_left _ hz)
      · obtain ⟨y, hy, rfl⟩ := List.mem_map.1 hz
        exact hk y (List.mem_append_right _ hy)

theorem Mid.drop {gs : List Nat} {ts : List Seen} {t : Seen} {ls : List TLine} {zs : List (TLine × Nat × Nat)} (h : Mid gs ts t ls zs) :
    Tags gs (ts ++ [t]) ls zs := by
  refine ⟨h.map, h.good, h.pair, h.next, ?_⟩
  intro za z zb e _ hr _
  exfalso
  have hz : z ∈ zs := by rw [e]; simp
  obtain ⟨-, y, hy, e1, -⟩ := hr ts.length (h.lt z hz) (by simp)
  have := h.lt y hy
  omega

theorem Mid.push {gs : List Nat} {ts : List Seen} {t : Seen} {ls : List TLine} {zs : List (TLine × Nat × Nat)} (h : Mid gs ts t ls zs)
    {ln : TLine} (h1 : ln.text = t.text) (h2 : SectionAt (ts ++ [t]) ln.sect.s)
    (h3 : ∃ q, PositionAt (ts ++ [t]) q ∧ Holds q ln.source) : ∃ zs', Tags gs (ts ++ [t]) (ls ++ [ln]) zs' := by
  by_cases hn : ln.text = []
  · refine ⟨zs, ?_, h.good, h.pair, h.next, ?_⟩
    · rw [h.map, List.filter_append, List.filter_cons_of_neg (by simp [hn]), List.filter_nil, List.append_nil]
    · intro za z zb e hl hr hg
      exact (by
        exfalso
        have hz : z ∈ zs := by rw [e]; simp
        obtain ⟨-, y, hy, e1, -⟩ := hr ts.length (h.lt z hz) (by simp)
        have := h.lt y hy
        omega)
  · have hrun : ∀ k j, j ≤ ts.length → Run gs (zs ++ [(ln, ts.length, ts.length)]) k j → Run gs zs k j := by
      intro k j hj hr i hi hij
      obtain ⟨g1, y, hy, g2, g3⟩ := hr i hi hij
      refine ⟨g1, ?_⟩
      rcases List.mem_append.1 hy with hy | hy
      · exact ⟨y, hy, g2, g3⟩
      · rw [List.mem_singleton] at hy
        subst hy
        have : ts.length = i := g2
        omega
    refine ⟨zs ++ [(ln, ts.length, ts.length)], ?_, ?_, ?_, ?_, ?_⟩
    · rw [List.map_append, h.map, List.filter_append, List.filter_cons_of_pos (by simp [hn]), List.filter_nil]; rfl
    · intro z hz
      rcases List.mem_append.1 hz with hz | hz
      · exact h.good z hz
      · rw [List.mem_singleton] at hz
        subst hz
        refine ⟨by simp [h1], by rw [take_self]; exact h2, Nat.le_refl _, by simp, fun _ => rfl, fun h => (h rfl).elim, by rw [take_self]; exact h3⟩
    · rw [List.pairwise_append]
      refine ⟨h.pair, by simp, fun x hx y hy => ?_⟩
      rw [List.mem_singleton] at hy
      subst hy
      have := (h.good x hx).lt
      rw [List.length_append, List.length_singleton] at this
      exact ⟨h.lt x hx, fun _ => show x.2.2 ≤ ts.length by omega⟩
    · intro z hz a1 j t' a2 a3 a4 a5 a6 a7
      have hj := (List.getElem?_eq_some_iff.1 a3).1
      rw [List.length_append, List.length_singleton] at hj
      rcases List.mem_append.1 hz with hz | hz
      · exact h.next z hz a1 j t' a2 a3 a4 a5 (hrun _ _ (by omega) a6) a7
      · rw [List.mem_singleton] at hz
        subst hz
        have : ts.length < j := a2
        omega
    · intro za z zb e hl hr hg
      rcases List.eq_nil_or_concat zb with rfl | ⟨zb, w, rfl⟩
      · obtain ⟨-, e⟩ := List.append_inj' e rfl
        simp only [List.cons.injEq, and_true] at e
        subst e
        refine ⟨ls.map TLine.kind, ln.kind, [], ?_, rfl, hn, hl, by simp⟩
        rw [List.map_append]; rfl
      · have e' : zs ++ [(ln, ts.length, ts.length)] = (za ++ z :: zb) ++ [w] := by rw [e]; simp
        obtain ⟨e1, e2⟩ := List.append_inj' e' rfl
        simp only [List.cons.injEq, and_true] at e2
        subst e2
        have hz : z ∈ zs := by rw [e1]; simp
        have hlt := h.lt z hz
        obtain ⟨hg1, y, hy, g2, g3, g4⟩ := hr ts.length hlt (by simp)
        have : y = (ln, ts.length, ts.length) := by
          rcases List.mem_append.1 hy with hy | hy
          · have := h.lt y hy; omega
          · exact List.mem_singleton.1 hy
        subst this
        obtain ⟨a, x, b, g5, g6, g7, g8, g9⟩ := h.trail za z zb e1 hl (hrun _ _ (Nat.le_refl _) fun i hi hj => hr i hi (by simp; omega)) hg1
        refine ⟨a, x, b ++ [ln.kind], ?_, ?_, g7, g8, ?_⟩
        · rw [List.map_append, g5]; simp
        · rw [List.length_append, g6, List.concat_eq_append, List.length_append]; rfl
        · intro v hv
          rcases List.mem_append.1 hv with hv | hv
          · exact g9 v hv
          · rw [List.mem_singleton] at hv
            subst hv
            exact ⟨hn, g3, g4⟩

/-! ### The invariant -/

/-- The line number of a position. -/
def posLine : Option Pos → Int
  | none => 0
  | some (.indexed _ n _) => n
  | some (.named _ n) => n

theorem Holds.line {q : Option Pos} {s : TSource} (h : Holds q s) : s.line = posLine q := by
  cases q with
  | none => exact h.2
  | some q =>
    cases q with
    | indexed => exact h.2.2.1
    | named => exact h.2.2.1

theorem SetsPos.line {ts : List Seen} {t : Seen} {q : Option Pos} (h : SetsPos ts t q) :
    t.Ends ∧ posLine q = 0 ∨ ¬ t.Ends ∧ SetsLine t.text (posLine q) := by
  cases h with
  | ends h => exact .inl ⟨h, rfl⟩
  | loc he h h0 => exact .inr ⟨he, .inl ⟨_, _, h, h0⟩⟩
  | stab he h => exact .inr ⟨he, .inr (.inl h)⟩
  | stabEnd he h hk => exact .inr ⟨he, .inr (.inr (.inl ⟨_, _, h, hk, rfl⟩))⟩
  | dbg he h => exact .inr ⟨he, .inr (.inr (.inr (.inl ⟨_, h⟩)))⟩
  | d2 he h => exact .inr ⟨he, .inr (.inr (.inr (.inr h)))⟩

theorem SetsLine.pos {ts : List Seen} {t : Seen} {n : Int} {file : Str} (h : SetsLine t.text n) (he : ¬ t.Ends) (hd : D2FileNamed ts file) :
    ∃ q, SetsPos ts t q ∧ posLine q = n := by
  rcases h with ⟨i, c, h, h0⟩ | h | ⟨k, m, h, hk, rfl⟩ | ⟨f, h⟩ | h
  · exact ⟨_, .loc he h h0, rfl⟩
  · exact ⟨_, .stab he h, rfl⟩
  · exact ⟨_, .stabEnd he h hk, rfl⟩
  · exact ⟨_, .dbg he h, rfl⟩
  · exact ⟨_, .d2 he h hd, rfl⟩

theorem collapse_snoc {ls : List Str} {l : Str} (h : l ≠ []) : collapse (ls ++ [l]) = collapse ls ++ [l] := by
  unfold collapse
  rw [collapseFrom_append, if_neg (fun h' => h h'.1)]

theorem collapse_blank {p : TParser} {n : Nat} {ls : List Str} (h : p.lines.map TLine.text = collapse ls) :
    (p.maybeAddBlank n).lines.map TLine.text = collapse (ls ++ [[]]) := by
  unfold collapse at h ⊢
  rw [collapseFrom_append, ← h, List.getLast?_map]
  unfold TParser.maybeAddBlank
  cases hl : p.lines.getLast? with
  | none => simp
  | some l =>
    simp only [Option.map_some, true_and, decide_eq_true_eq]
    by_cases he : l.text = []
    · rw [if_pos (by simpa using he), if_pos he, List.append_nil]
    · rw [if_neg (by simpa using he), if_neg he, List.map_append]; rfl

theorem handled_iff (p : TParser) : p.handled = true ↔ ¬ p.seen.Ends ∧ SourceInfo p.newLine.text := by
  have := handleSourceDirectives_iff p.pre p.newLine
  rw [(pre_src p).2] at this
  exact this

theorem atProc_eq (p : TParser) : p.atProc = true ↔ (p.st.currentSourceRef.line != 0) = false ∧ occurs b! ".cfi_startproc" p.newLine.text = true := by
  unfold TParser.atProc
  rw [Bool.and_eq_true, startProcBlock_iff, ← occurs_iff, and_comm]
  simp

theorem dropDir_iff (p : TParser) : p.dropDir = true ↔
    p.filter.directives = true ∧ (PlainDirective p.newLine.text ∨ p.handled = true ∧ ¬ occurs b! ".inst" p.newLine.text = true) := by
  unfold TParser.dropDir
  rw [← plainDirective_iff, ← isInstOpcode_occurs]
  cases p.filter.directives <;> cases isInstOpcode p.newLine.text <;> cases p.handled <;> simp

theorem isComment_iff (p : TParser) : p.isComment = true ↔
    p.filter.commentOnly = true ∧ (if p.st.inNvccCode then CudaComment p.st.text else OnlyComment p.st.text) := by
  unfold TParser.isComment
  rw [Bool.and_eq_true]
  split
  · rw [isJustNvccComments_iff]
  · rw [C29_comment]

section
variable [Recognizers]

/-- Is there a current source line after the line? -/
theorem placed_step {ts : List Seen} {t : Seen} {file : Str} {s s' : TSource} {b : Bool} (hd : D2FileNamed ts file) (hb : b = (s.line != 0))
    (h : (∃ x, SetsPos ts t x ∧ Holds x s') ∨ ((∀ x, ¬ SetsPos ts t x) ∧ s' = s)) :
    (if t.Ends ∨ SetsLine t.text 0 then false else if ∃ n, SetsLine t.text n then true else b) = (s'.line != 0) := by
  rcases h with ⟨x, h1, h2⟩ | ⟨h1, rfl⟩
  · rw [h2.line]
    rcases h1.line with ⟨h3, h4⟩ | ⟨h3, h4⟩
    · rw [if_pos (.inl h3), h4]; rfl
    · by_cases h0 : SetsLine t.text 0
      · rw [if_pos (.inr h0)]
        obtain ⟨q, g1, g2⟩ := h0.pos h3 hd
        rw [h1.unique g1, g2]; rfl
      · rw [if_neg (by rintro (h | h) <;> contradiction), if_pos ⟨_, h4⟩]
        have : posLine x ≠ 0 := fun e => h0 (e ▸ h4)
        exact (bne_iff_ne.2 this).symm
  · have h3 : ¬ t.Ends := fun h => h1 _ (.ends h)
    have h4 : ∀ n, ¬ SetsLine t.text n := fun n h => by
      obtain ⟨q, g1, -⟩ := h.pos h3 hd
      exact h1 _ g1
    rw [if_neg (by rintro (h | h)
                   · exact h3 h
                   · exact h4 _ h), if_neg (fun ⟨n, h⟩ => h4 n h), hb]

/-- What the line changes, in terms of the parser. -/
def seeWith (sc : Scan) (p : TParser) : Scan :=
  let s := { sc with
    texts := sc.texts ++ [p.seen]
    placed := if p.seen.Ends ∨ SetsLine p.seen.text 0 then false else if ∃ n, SetsLine p.seen.text n then true else sc.placed }
  if p.filter.libraryFunctions || p.isComment then s
  else { s with
    code := sc.code || p.header
    params := (sc.params || p.header) && !isCudaEndDef p.newLine.text
    shown := if !(sc.params || p.header) && p.dropDir then sc.shown else sc.shown ++ [p.newLine.text] }

theorem see_eq (sc : Scan) (p : TParser) (hc : p.st.inNvccCode = sc.code) (hd : p.st.inNvccDef = sc.params) (hpl : sc.placed = (p.st.currentSourceRef.line != 0))
    (hn : sc.nest = nesting p.st.inCustomAssembly p.st.text) :
    Scan.see p.filter sc p.st.text p.newLine.text = if p.filter.directives = true ∧ p.atProc = true then sc else seeWith sc p := by
  unfold Scan.see
  have hpr : (p.filter.directives = true ∧ sc.placed = false ∧ occurs b! ".cfi_startproc" p.newLine.text = true) ↔
      (p.filter.directives = true ∧ p.atProc = true) := by rw [atProc_eq, ← hpl]
  by_cases h1 : p.filter.directives = true ∧ p.atProc = true
  · rw [if_pos h1, if_pos (hpr.2 h1)]
  rw [if_neg h1, if_neg (fun h => h1 (hpr.1 h))]
  unfold seeWith
  have hcom : decide (p.filter.libraryFunctions = true ∨ p.filter.commentOnly = true ∧ (if sc.code = true then CudaComment p.st.text else OnlyComment p.st.text)) =
      (p.filter.libraryFunctions || p.isComment) := by
    rw [Bool.eq_iff_iff, decide_eq_true_iff, Bool.or_eq_true, isComment_iff, hc]
  have hseen : (Seen.mk p.newLine.text sc.code (p.filter.libraryFunctions || p.isComment) sc.params (decide (sc.nest > 0))) = p.seen := by
    rw [← hc, ← hd, hn]; rfl
  have hinfo : decide (¬ p.seen.Ends ∧ SourceInfo p.newLine.text) = p.handled := by
    rw [Bool.eq_iff_iff, decide_eq_true_iff, handled_iff]
  have hhead : decide (p.handled = false ∧ StartsCuda p.newLine.text) = p.header := by
    rw [Bool.eq_iff_iff, decide_eq_true_iff, ← isHeader_iff]
    unfold TParser.header
    simp
  simp only [hcom, hseen, hinfo, hhead]
  by_cases h2 : (p.filter.libraryFunctions || p.isComment) = true
  · rw [if_pos h2, if_pos h2]; rfl
  rw [if_neg h2, if_neg h2]
  have hend : decide (p.newLine.text.filter (fun c => decide (c ≠ 32 ∧ c ≠ 9)) ≠ b! ")") = !isCudaEndDef p.newLine.text := by
    rw [isCudaEndDef_filter]
    simp
  by_cases h3 : (sc.params || p.header) = true
  · rw [if_pos h3]
    rw [hend, h3]
    rfl
  · rw [if_neg h3]
    rw [Bool.not_eq_true] at h3
    rw [h3]
    have hp : sc.params = false := (Bool.or_eq_false_iff.1 h3).1
    have hd : (p.filter.directives = true ∧ (PlainDirective p.newLine.text ∨ p.handled = true ∧ ¬ occurs b! ".inst" p.newLine.text = true)) ↔
        p.dropDir = true := (dropDir_iff p).symm
    by_cases h4 : p.dropDir = true
    · rw [if_pos (hd.2 h4), h4]
      simp only [Bool.not_false, Bool.true_and, Bool.false_and, if_true]
      rw [← hp]
      rfl
    · rw [if_neg fun h => h4 (hd.1 h)]
      rw [Bool.not_eq_true] at h4
      rw [h4]
      simp only [Bool.not_false, Bool.true_and, Bool.false_and, Bool.false_eq_true, if_false]
      rw [← hp]
      rfl

/-- What the parser holds after the lines of a scan; `B` says whether the source positions of the lines are tracked as well. -/
structure ReadCore (B : Prop) (sc : Scan) (p : TParser) : Prop where
  inside : p.st.hasStartedCommentBlock = sc.inside
  nest : p.st.inCustomAssembly = sc.nest
  carry : p.st.text = sc.carry
  nv : p.nv = (sc.code, sc.params)
  placed : sc.placed = (p.st.currentSourceRef.line != 0)
  shown : p.lines.map TLine.text = collapse sc.shown
  blank : sc.carry ≠ [] → ∃ x, sc.shown = x ++ [[]]
  state : SrcState sc.texts p
  tags : B → ∃ zs, Tags sc.gaps sc.texts p.lines zs

theorem readCore_step (B : Prop) (L : Locale) (f : Filter) (sc : Scan) (p : TParser) (l : Str) (hf : p.filter = f) (hb : Basic p)
    (h : ReadCore B sc p) (hs : EolStep L (p.addText l) ((p.addText l).eol L)) : ReadCore B (Scan.line f sc l) ((p.addText l).eol L) := by
  have hraw : (p.addText l).st.text = sc.carry ++ l := by show p.st.text ++ l = _; rw [h.carry]
  have hblk : (p.addText l).inBlock = (f.commentOnly && (sc.inside || opensComment (sc.carry ++ l))) := by
    unfold TParser.inBlock
    rw [show (p.addText l).filter = f from hf, hraw, startCommentBlock_opens,
      show (p.addText l).st.hasStartedCommentBlock = p.st.hasStartedCommentBlock from rfl, h.inside]
  have hins : ((p.addText l).eol L).st.hasStartedCommentBlock =
      if (p.addText l).inBlock then !occurs b! "*/" (sc.carry ++ l) else sc.inside := by
    rw [hs.block, ← hraw, ← endCommentBlock_occurs, ← h.inside]; rfl
  have hnest : nesting (p.addText l).st.inCustomAssembly (p.addText l).st.text =
      if startsWithWord [b! "#APP", b! "# Begin ASM"] (sc.carry ++ l) then sc.nest + 1
      else if startsWithWord [b! "#NO_APP", b! "# End ASM"] (sc.carry ++ l) then sc.nest - 1 else sc.nest := by
    rw [nesting_scan, hraw, show (p.addText l).st.inCustomAssembly = p.st.inCustomAssembly from rfl, h.nest]
  have hstate : SrcState sc.texts (p.addText l) := h.state.congr rfl
  have htg : B → ∃ zs, Tags sc.gaps sc.texts (p.addText l).lines zs := h.tags
  have hnv : (p.addText l).nv = (sc.code, sc.params) := h.nv
  have hpl : sc.placed = ((p.addText l).st.currentSourceRef.line != 0) := h.placed
  have hsh : (p.addText l).lines.map TLine.text = collapse sc.shown := h.shown
  have hasm' : (p.addText l).st.inCustomAssembly = sc.nest := h.nest
  have hfl : (p.addText l).filter = f := hf
  have hsrc := eol_src L (p.addText l) (basic_addText hb l)
  clear hs h hf hb
  unfold Scan.line
  simp only
  rw [← hblk, ← white_scan, ← hraw]
  rw [← hraw] at hnest hins
  rw [← hnest]
  generalize p.addText l = p at *
  generalize p.eol L = p' at *
  have hnew : p.newLine.text = cleaned f (if nesting p.st.inCustomAssembly p.st.text > 0 then fixLabelIndentation p.st.text else p.st.text) := by
    rw [← hfl]; rfl
  have href : p'.src = p.src → p'.st.currentSourceRef = p.st.currentSourceRef := fun e => congrArg (·.1) e
  rcases hsrc with ⟨h1, e1, e2, e3, e4, e5⟩ | ⟨h1, h2, e1, e2, e3, e4, e5⟩ | ⟨h1, h2, h3, h4, e1, e2, e3, e4, e5⟩ |
    ⟨h1, h2, h3, e1, e2, e3, e4, e5, e6, e7⟩
  · rw [if_pos h1] at hins ⊢
    exact ⟨hins, e4.trans hasm', e3, e5.trans hnv, by rw [href e2]; exact hpl, by rw [e1]; exact hsh, fun h => (h rfl).elim, hstate.congr e2,
      by rw [e1]; exact htg⟩
  · rw [h1] at hins ⊢
    rw [h2]
    refine ⟨hins, e4.trans hasm', e3, e5.trans hnv, by rw [href e2]; exact hpl, ?_, fun _ => ⟨_, rfl⟩, hstate.congr e2, ?_⟩
    · rw [e1]
      exact collapse_blank (p := p.start) hsh
    · intro hB
      obtain ⟨zs, hz⟩ := htg hB
      rw [e1]
      rcases maybeAddBlank_cases p.start (p.nextId + 1) with e | ⟨x, -, -, e⟩
      · rw [e]; exact ⟨zs, hz.gap⟩
      · rw [e]; exact ⟨zs, hz.blank rfl⟩
  · rw [h1] at hins ⊢
    rw [h2, ← hnew]
    have hsee := see_eq { sc with nest := nesting p.st.inCustomAssembly p.st.text, carry := [] } p (congrArg (·.1) hnv) (congrArg (·.2) hnv) hpl rfl
    rw [hfl, if_pos ⟨hfl ▸ h4, h3⟩] at hsee
    simp only [Bool.false_eq_true, if_false]
    rw [hsee]
    refine ⟨hins, e4, e3, e5.trans hnv, by rw [href e2]; exact hpl, ?_, fun h => (h rfl).elim, hstate.congr e2, fun hB => ?_⟩
    · rw [e1, ← amended_text (frame_pre p).lines]
      exact hsh
    · obtain ⟨zs, hz⟩ := htg hB
      rw [e1]
      exact hz.pre
  · rw [h1] at hins ⊢
    rw [h2, ← hnew]
    have hsee := see_eq { sc with nest := nesting p.st.inCustomAssembly p.st.text, carry := [] } p (congrArg (·.1) hnv) (congrArg (·.2) hnv) hpl rfl
    rw [hfl, if_neg (fun ⟨g1, g2⟩ => by rw [h3 (hfl ▸ g1)] at g2; exact absurd g2 (by simp))] at hsee
    simp only [Bool.false_eq_true, if_false]
    rw [hsee]
    obtain ⟨hst, hamd, hpos⟩ := sec_state p hstate
    have hplaced := placed_step hstate.d2 hpl hpos
    have href' : p'.st.currentSourceRef = p.sec.st.currentSourceRef := congrArg (·.1) e2
    rw [← href'] at hplaced
    have htags : B → ∃ zs, Tags sc.gaps (sc.texts ++ [p.seen]) p'.lines zs := by
      intro hB
      obtain ⟨zs, hz⟩ := htg hB
      obtain ⟨zs1, hz1⟩ := hz.pre
      obtain ⟨zs2, hz2⟩ := hz1.step hamd hst.pos
      rcases e1 with e1 | ⟨ln, e1, hln⟩
      · exact ⟨zs2, by rw [e1]; exact hz2.drop⟩
      · rw [e1]
        exact hz2.push hln.text (by rw [hln.sect]; exact hst.sect) (by rw [hln.source]; exact hst.pos)
    have hsame : p'.lines = p.sec.lines → p'.lines.map TLine.text = collapse sc.shown := by
      intro e
      rw [e, ← amended_text (frame_sec p).lines]
      exact hsh
    have hmore : p'.lines ≠ p.sec.lines → p'.lines.map TLine.text = collapse (sc.shown ++ [p.newLine.text]) := by
      intro hne
      rcases e1 with e1 | ⟨ln, e1, hln⟩
      · exact (hne e1).elim
      · rw [e1, List.map_append, ← amended_text (frame_sec p).lines, collapse_snoc (newLine_ne p h2), ← hsh, ← hln.text]
        rfl
    have hst' := hst.congr e2
    cases hlib : p.filter.libraryFunctions with
    | true =>
      obtain ⟨e7, e8⟩ := e7 hlib
      unfold seeWith
      rw [hlib]
      exact ⟨hins, e4, e3, e7.trans hnv, hplaced, hsame e8, fun h => (h rfl).elim, hst', htags⟩
    | false =>
      have e6 := e6 hlib
      have e5 := e5 hlib
      unfold seeWith
      rw [hlib, Bool.false_or]
      cases hc : p.isComment with
      | true =>
        rw [hc] at e5 e6
        exact ⟨hins, e4, e3, e6.trans hnv, hplaced, hsame (e5.2 (by simp)), fun h => (h rfl).elim, hst', htags⟩
      | false =>
        rw [hc] at e5 e6
        simp only [Bool.false_eq_true, if_false, Bool.false_or] at e5 e6 ⊢
        have a1 : p.st.inNvccCode = sc.code := congrArg (·.1) hnv
        have a2 : p.st.inNvccDef = sc.params := congrArg (·.2) hnv
        rw [a1, a2] at e6
        rw [a2] at e5
        refine ⟨hins, e4, e3, e6, hplaced, ?_, fun h => (h rfl).elim, hst', htags⟩
        show _ = collapse (if _ then _ else _)
        split
        · rename_i h; exact hsame (e5.2 h)
        · rename_i h; exact hmore fun h' => h (e5.1 h')

structure ReadInv (sc : Scan) (p : TParser) : Prop where
  inside : p.st.hasStartedCommentBlock = sc.inside
  nest : p.st.inCustomAssembly = sc.nest
  carry : p.st.text = sc.carry
  nv : p.nv = (sc.code, sc.params)
  placed : sc.placed = (p.st.currentSourceRef.line != 0)
  shown : p.lines.map TLine.text = collapse sc.shown
  blank : sc.carry ≠ [] → ∃ x, sc.shown = x ++ [[]]
  state : SrcState sc.texts p
  tags : ∃ zs, Tags sc.gaps sc.texts p.lines zs

theorem readInv_step (L : Locale) (f : Filter) (sc : Scan) (p : TParser) (l : Str) (hf : p.filter = f) (hb : Basic p)
    (h : ReadInv sc p) (hs : EolStep L (p.addText l) ((p.addText l).eol L)) : ReadInv (Scan.line f sc l) ((p.addText l).eol L) := by
  have := readCore_step True L f sc p l hf hb
    ⟨h.inside, h.nest, h.carry, h.nv, h.placed, h.shown, h.blank, h.state, fun _ => h.tags⟩ hs
  exact ⟨this.inside, this.nest, this.carry, this.nv, this.placed, this.shown, this.blank, this.state, this.tags trivial⟩

/-- The scan of some lines. -/
def scanned (f : Filter) (ls : List Str) : Scan := ls.foldl (Scan.line f) {}

theorem scanned_snoc (f : Filter) (ls : List Str) (l : Str) : scanned f (ls ++ [l]) = Scan.line f (scanned f ls) l := by
  unfold scanned; rw [List.foldl_append]; rfl

/-- All but the last field of `Tags`. -/
structure Placed (gs : List Nat) (ts : List Seen) (ls : List TLine) (zs : List (TLine × Nat × Nat)) : Prop where
  map : zs.map (·.1) = ls.filter fun l => l.text ≠ []
  good : ∀ z ∈ zs, Numbered ts z.1 z.2.1 z.2.2
  pair : zs.Pairwise fun a b => a.2.1 < b.2.1 ∧ (b.1.isLabel = false → a.2.2 ≤ b.2.1)
  next : ∀ z ∈ zs, z.1.isLabel = true → ∀ j t, z.2.1 < j → ts[j]? = some t → MovesLabels t.text → ¬ t.Ends → Run gs zs z.2.1 j → j ∉ gs →
    j ≤ z.2.2

omit [Recognizers] in
theorem collapse_twice (x : List Str) : collapse (x ++ [[]] ++ [[]]) = collapse (x ++ [[]]) := by
  have h : ∀ b, collapseFrom b (x ++ [[]] ++ [[]]) = collapseFrom b (x ++ [[]]) := by
    induction x with
    | nil => intro b; cases b <;> rfl
    | cons a x ih => intro b; simp only [List.cons_append, collapseFrom]; rw [ih, ih]
  exact h true

/-- The lines that were read, with their numbers, and the source state. -/
theorem readTags (L : Locale) (f : Filter) (s : Str) :
    SrcState (seen f s) ((TParser.init f).readStream L s) ∧
    ((TParser.init f).readStream L s).lines.map TLine.text = collapse (scan f s).shown ∧
    ∃ zs, Placed (scanned f (inputLines s)).gaps (seen f s) ((TParser.init f).readStream L s).lines zs := by
  obtain ⟨e, he, h, -, -⟩ := readStream_lines L f (fun done p => TextInv L f done p ∧ ReadInv (scanned f done) p)
    ⟨⟨fun c hc => absurd hc (by simp [TParser.init]), by simp [TParser.init], by simp [TParser.init],
      ⟨by simp [TParser.init], by simp [TParser.init], by simp [TParser.init], by simp [TParser.init]⟩, trivial, fun _ => rfl⟩,
     ⟨rfl, rfl, rfl, rfl, rfl, rfl, fun h => (h rfl).elim,
      ⟨⟨none, .start, rfl, rfl⟩, fun i name => ⟨fun h => by simp [TParser.init] at h, fun ⟨a, t, b, e, _⟩ => by
        simp [scanned] at e⟩, .inl ⟨rfl, fun t ht => by simp [scanned] at ht⟩, .inl ⟨rfl, fun t ht => by simp [scanned] at ht⟩⟩,
        [], rfl, by simp, .nil, by simp, fun za z zb e => by simp at e⟩⟩
    (fun done p l _ hf hb h hs => ⟨textInv_step L f done p l hf h.1 hs, by
      rw [scanned_snoc]
      exact readInv_step L f _ p l hf hb h.2 hs⟩) s
  rcases he with rfl | ⟨rfl, q, hq, hi', hr⟩
  · rw [List.append_nil] at h
    obtain ⟨-, h⟩ := h
    obtain ⟨zs, hz⟩ := h.tags
    exact ⟨h.state, h.shown, zs, hz.map, hz.good, hz.pair, hz.next⟩
  · obtain ⟨hi, h⟩ := h
    have hb : (scanned f (inputLines s)).carry.all (fun c => c = 32 || c = 9) = true := by
      rw [← hr.carry, ← white_scan, blanks_white]
      exact hi'.carry
    have hstep : Scan.line f (scanned f (inputLines s)) [] = { scanned f (inputLines s) with inside := !occurs b! "*/" (scanned f (inputLines s)).carry, carry := [] } ∨
        Scan.line f (scanned f (inputLines s)) [] =
          { scanned f (inputLines s) with gaps := (scanned f (inputLines s)).gaps ++ [(seen f s).length], shown := (scanned f (inputLines s)).shown ++ [[]] } := by
      unfold Scan.line
      simp only [List.append_nil, hb, if_true]
      split
      · exact .inl rfl
      · exact .inr rfl
    rw [scanned_snoc] at h
    have e : (Scan.line f (scanned f (inputLines s)) []).texts = seen f s := by rcases hstep with e | e <;> rw [e] <;> rfl
    have es : collapse (Scan.line f (scanned f (inputLines s)) []).shown = collapse (scan f s).shown := by
      rcases hstep with e | e <;> rw [e]
      · rfl
      · obtain ⟨x, hx⟩ := hr.blank (by rw [← hr.carry]; exact hq)
        show collapse (_ ++ _) = collapse (scanned f (inputLines s)).shown
        rw [hx, collapse_twice]
    have eg : ∀ i, i < (seen f s).length → i ∈ (Scan.line f (scanned f (inputLines s)) []).gaps → i ∈ (scanned f (inputLines s)).gaps := by
      intro i hi
      rcases hstep with e | e <;> rw [e]
      · exact id
      · intro hm
        rcases List.mem_append.1 hm with hm | hm
        · exact hm
        · rw [List.mem_singleton] at hm
          omega
    obtain ⟨zs, hz⟩ := h.tags
    rw [e] at hz
    refine ⟨e ▸ h.state, h.shown.trans es, zs, hz.map, hz.good, hz.pair, ?_⟩
    · intro z hm h1 j t h2 h3 h4 h5 h6 h7
      have hj := (List.getElem?_eq_some_iff.1 h3).1
      exact hz.next z hm h1 j t h2 h3 h4 h5 (fun i hi hij => ⟨fun hc => (h6 i hi hij).1 (eg i (by omega) hc), (h6 i hi hij).2⟩)
        fun hc => h7 (eg j hj hc)

/-! ### The final lines -/

omit [Recognizers] in
theorem pull_map {α β γ : Type} {g : α → β} {xs : List (β × γ)} {ys : List α} (h : xs.map (·.1) = ys.map g) :
    ∃ zs : List (α × γ), zs.map (·.1) = ys ∧ zs.map (fun z => (g z.1, z.2)) = xs := by
  induction ys generalizing xs with
  | nil =>
    have : xs = [] := by simpa using h
    subst this
    exact ⟨[], rfl, rfl⟩
  | cons y ys ih =>
    cases xs with
    | nil => simp at h
    | cons x xs =>
      simp only [List.map_cons, List.cons.injEq] at h
      obtain ⟨zs, h1, h2⟩ := ih h.2
      refine ⟨(y, x.2) :: zs, by simp [h1], ?_⟩
      rw [List.map_cons, h2, ← h.1]

/-- The lines at the end that are kept, with their numbers. -/
structure Final (gs : List Nat) (ts : List Seen) (p : TParser) (zs : List (TLine × Nat × Nat)) : Prop where
  map : zs.map (·.1) = p.lines.filter fun l => l.text ≠ []
  pair : zs.Pairwise fun a b => a.2.1 < b.2.1 ∧ (b.1.isLabel = false → a.2.2 ≤ b.2.1)
  good : ∀ z ∈ zs, ∃ l0, Numbered ts l0 z.2.1 z.2.2 ∧ z.1 = p.finishKept l0
  next : ∀ z ∈ zs, z.1.isLabel = true → ∀ j t, z.2.1 < j → ts[j]? = some t → MovesLabels t.text → ¬ t.Ends → Run gs zs z.2.1 j → j ∉ gs →
    j ≤ z.2.2

omit [Recognizers] in
theorem finishKept_text (p : TParser) (l : TLine) : (p.finishKept l).text = l.text :=
  (congrArg TLine.text (finishKept_core p l) :)

omit [Recognizers] in
theorem finishKept_isLabel (p : TParser) (l : TLine) : (p.finishKept l).isLabel = l.isLabel :=
  (congrArg TLine.isLabel (finishKept_core p l) :)

omit [Recognizers] in
theorem finishKept_internal (p : TParser) (l : TLine) : (p.finishKept l).isInternalLabel = l.isInternalLabel :=
  (congrArg TLine.isInternalLabel (finishKept_core p l) :)

omit [Recognizers] in
theorem finishKept_sect (p : TParser) (l : TLine) : (p.finishKept l).sect = l.sect :=
  (congrArg TLine.sect (finishKept_core p l) :)

theorem finalTags {L : Locale} {f : Filter} {s : Str} {p : TParser} (h : TextResult L f s p) : SrcState (seen f s) p ∧ ∃ zs, Final (scanned f (inputLines s)).gaps (seen f s) p zs := by
  obtain ⟨o, n, v, v', h⟩ := h
  obtain ⟨us, ls, lines, fl, ub, rfl, h1, sub, h2, h3, -⟩ := outcome h
  obtain ⟨hs, -, zr, hm, hg, hpair, hnext⟩ := readTags L f s
  refine ⟨hs.congr rfl, ?_⟩
  generalize (TParser.init f).readStream L s = r at *
  -- through `noUse`
  have e1 : (zr.map fun z => (z.1.noUse, z.2)).map (·.1) = (ls.filter fun l => l.text ≠ []).map TLine.noUse := by
    have : ∀ xs : List TLine, (xs.filter fun l => l.text ≠ []).map TLine.noUse = (xs.map TLine.noUse).filter fun l => l.text ≠ [] := by
      intro xs; rw [List.filter_map]; rfl
    rw [this, h1, ← this, ← hm, List.map_map, List.map_map]; rfl
  obtain ⟨zl, m1, m2⟩ := pull_map e1
  have gl : ∀ z ∈ zl, Numbered (seen f s) z.1 z.2.1 z.2.2 := by
    intro z hz
    have : (z.1.noUse, z.2) ∈ zl.map fun z => (z.1.noUse, z.2) := List.mem_map_of_mem hz
    rw [m2] at this
    obtain ⟨y, hy, e⟩ := List.mem_map.1 this
    obtain ⟨ea, eb⟩ := Prod.mk.inj e
    obtain ⟨g1, g2, g3, g4, g5, g6, g7⟩ := hg y hy
    rw [eb] at g1 g2 g3 g4 g5 g6 g7
    have t1 : y.1.text = z.1.text := (congrArg TLine.text ea :)
    have t2 : y.1.sect = z.1.sect := (congrArg TLine.sect ea :)
    have t3 : y.1.isLabel = z.1.isLabel := (congrArg TLine.isLabel ea :)
    have t4 : y.1.source = z.1.source := (congrArg TLine.source ea :)
    exact ⟨t1 ▸ g1, t2 ▸ g2, g3, g4, t3 ▸ g5, g6, t4 ▸ g7⟩
  have pl : zl.Pairwise fun a b => a.2.1 < b.2.1 ∧ (b.1.isLabel = false → a.2.2 ≤ b.2.1) := by
    have : (zr.map fun z => (z.1.noUse, z.2)).Pairwise fun a b => a.2.1 < b.2.1 ∧ (b.1.isLabel = false → a.2.2 ≤ b.2.1) :=
      List.pairwise_map.2 hpair
    rw [← m2] at this
    exact List.pairwise_map.1 this
  have il : ∀ z ∈ zl, ∃ y ∈ zr, y.1.noUse = z.1.noUse ∧ y.2 = z.2 := by
    intro z hz
    have : (z.1.noUse, z.2) ∈ zl.map fun z => (z.1.noUse, z.2) := List.mem_map_of_mem hz
    rw [m2] at this
    obtain ⟨y, hy, e⟩ := List.mem_map.1 this
    obtain ⟨ea, eb⟩ := Prod.mk.inj e
    exact ⟨y, hy, ea, eb⟩
  -- the sublist
  have hsub : (sub.filter fun l => l.text ≠ []).Sublist (zl.map (·.1)) := by rw [m1]; exact h2.filter _
  obtain ⟨zs, hsub', e2⟩ := List.sublist_map_iff.1 hsub
  refine ⟨zs.map fun z => (r.finishKept z.1, z.2), ?_, ?_, ?_, ?_⟩
  · show _ = lines.filter _
    rw [h3, List.filter_map, List.map_map]
    have : sub.filter ((fun l : TLine => decide (l.text ≠ [])) ∘ r.finishKept) = sub.filter fun l => l.text ≠ [] :=
      List.filter_congr fun l _ => by simp [finishKept_text]
    rw [this, e2, List.map_map]; rfl
  · rw [List.pairwise_map]
    refine (pl.sublist hsub').imp fun {a b} hab => ⟨hab.1, fun h => hab.2 ?_⟩
    rw [← h]; exact (finishKept_isLabel r b.1).symm
  · intro z hz
    obtain ⟨y, hy, rfl⟩ := List.mem_map.1 hz
    exact ⟨y.1, gl y (hsub'.subset hy), rfl⟩
  · intro z hz h1 j t h2 h3 h4 h5 h6 h7
    obtain ⟨y, hy, rfl⟩ := List.mem_map.1 hz
    obtain ⟨x, hx, ea, eb⟩ := il y (hsub'.subset hy)
    have h1 : y.1.isLabel = true := (finishKept_isLabel r y.1).symm.trans h1
    have t3 : x.1.isLabel = y.1.isLabel := (congrArg TLine.isLabel ea :)
    have e1 : x.2.1 = y.2.1 := congrArg (·.1) eb
    have h2 : x.2.1 < j := e1 ▸ h2
    show j ≤ y.2.2
    rw [← eb]
    refine hnext x hx (t3.trans h1) j t h2 h3 h4 h5 ?_ h7
    intro i hi hij
    obtain ⟨g1, w, hw, g2, g3, g4⟩ := h6 i (show y.2.1 < i from e1 ▸ hi) hij
    refine ⟨g1, ?_⟩
    obtain ⟨v, hv, rfl⟩ := List.mem_map.1 hw
    obtain ⟨u, hu, eu, eu'⟩ := il v (hsub'.subset hv)
    have u1 : u.1.isLabel = v.1.isLabel := (congrArg TLine.isLabel eu :)
    have u2 : u.1.isInternalLabel = v.1.isInternalLabel := (congrArg TLine.isInternalLabel eu :)
    have u3 : u.2.1 = v.2.1 := congrArg (·.1) eu'
    exact ⟨u, hu, u3.trans g2, u1.trans ((finishKept_isLabel r v.1).symm.trans g3), u2.trans ((finishKept_internal r v.1).symm.trans g4)⟩

omit [Recognizers] in
theorem finishKept_source (p : TParser) (l : TLine) : (p.finishKept l).source =
    if l.source.fileIdx ≠ 0 then
      match p.files.lookup l.source.fileIdx with
      | some f => { l.source with file := ⟨f, none⟩, isUsercode := l.source.isUsercode || isExampleOrStdin f }
      | none => {}
    else l.source := by
  unfold TParser.finishKept
  simp only
  split
  · cases h : p.files.lookup l.source.fileIdx <;> simp only
  · rfl

omit [Recognizers] in
/-- What the final line shows. -/
theorem shownAs {ts : List Seen} {p : TParser} (hs : SrcState ts p) {q : Option Pos} {l : TLine} (h : Holds q l.source) :
    ShownAs ts q (p.finishKept l).shownSource := by
  have e := finishKept_source p l
  unfold TLine.shownSource
  cases q with
  | none =>
    obtain ⟨h1, h2⟩ := h
    rw [if_neg (by rw [h1]; simp)] at e
    rw [e, h2]
    exact .nothing
  | some q =>
    cases q with
    | named f n =>
      obtain ⟨h1, h2, h3, h4⟩ := h
      rw [if_neg (by rw [h1]; simp)] at e
      rw [e, h2, h3, h4]
      split
      · exact .named ‹_›
      · exact .zero (by omega)
    | indexed i n c =>
      obtain ⟨h0, h1, h2, h3⟩ := h
      rw [if_pos (by rw [h1]; exact h0), h1] at e
      rw [e]
      cases hl : p.files.lookup i with
      | some name =>
        simp only [h2, h3]
        split
        · exact .file ((hs.files _ _).1 hl) ‹_›
        · exact .line0 (by omega)
      | none =>
        refine .undefined fun name hf => ?_
        rw [(hs.files _ _).2 hf] at hl
        simp at hl

end

end AsmParser
