/-
Helper lemmas: what one line does to the current source position.
-/
import Verif.Proofs.SourceDirs
import Verif.Proofs.TextVisible

namespace AsmParser
open Re Regexes

attribute [local irreducible] Re.search Re.fullMatch

/-! ### Only one kind of directive -/

/-- The line is a directive `kw` with an argument. -/
def Kw (t kw : Str) : Prop := ∃ arg, Instructs t kw arg ∧ arg ≠ [] ∧ ∀ c ∈ arg.head?, ¬ Blank c ∧ c ≠ c! '='

theorem Kw.eq {t a b : Str} (h : Kw t a) (h' : Kw t b) (ha : KwWord a) (hb : KwWord b) : a = b := by
  obtain ⟨x, h1, h2⟩ := h
  obtain ⟨y, h3, h4⟩ := h'
  exact (h1.unique h3 ha hb ⟨h2.1, fun c hc => (h2.2 c hc).1⟩ ⟨h4.1, fun c hc => (h4.2 c hc).1⟩).1

theorem Number.arg {a r x : Str} (h : Number a r) : ∀ c ∈ (a ++ x).head?, ¬ Blank c ∧ c ≠ c! '=' := by
  intro c hc
  refine ⟨h.head c hc, ?_⟩
  rintro rfl
  obtain ⟨h1, h2, -⟩ := h
  cases a with
  | nil => exact h1 rfl
  | cons d a =>
    simp at hc
    have := h2 d (by simp)
    rw [hc] at this
    unfold Digit at this
    exact absurd this (by decide)

/-- A line with one of the words and an argument counts as a directive with source information. -/
theorem Kw.source {t kw : Str} (h : Kw t kw) (hk : kw ∈ [b! ".file", b! ".loc", b! ".stabn", b! ".dbg", b! ".d2line", b! ".d2file"]) :
    SourceDirective t := by
  obtain ⟨arg, ⟨bs, bs', h1, h2, h3, rfl⟩, h5, h6⟩ := h
  obtain ⟨c, r, rfl⟩ := List.exists_cons_of_ne_nil h5
  obtain ⟨k1, k2⟩ := h6 c rfl
  exact ⟨bs, kw, bs', c, r, h1, hk, h2, h3, k1, k2, rfl⟩

theorem LocLine.kw {t : Str} {i n c : Int} (h : LocLine t i n c) : Kw t b! ".loc" := by
  obtain ⟨a, bs, b, r, ha, -, -, -, -, -, hi, -⟩ := h
  refine ⟨_, hi, by simp [ha.1], ?_⟩
  rw [List.append_assoc, List.append_assoc]
  exact ha.arg

theorem FileDirective.kw {t name : Str} {i : Int} (h : FileDirective t i name) : Kw t b! ".file" := by
  obtain ⟨a, bs, q, b, r, ha, -, -, -, -, hi, -⟩ := h
  refine ⟨_, hi, by simp [ha.1], ?_⟩
  rw [List.append_assoc, List.append_assoc]
  exact ha.arg

theorem StabDirective.kw {t : Str} {k n : Int} (h : StabDirective t k n) : Kw t b! ".stabn" := by
  obtain ⟨a, b, r, ha, -, -, -, hi⟩ := h
  refine ⟨_, hi, by simp [ha.1], ?_⟩
  rw [List.append_assoc, List.append_assoc, List.append_assoc]
  exact ha.arg

theorem DbgDirective.kw {t file : Str} {n : Int} (h : DbgDirective t file n) : Kw t b! ".dbg" := by
  obtain ⟨bs, q, bs', a, -, -, -, -, -, hi⟩ := h
  exact ⟨_, hi, by simp, by simp; decide⟩

theorem D2Line.kw {t : Str} {n : Int} (h : D2Line t n) : Kw t b! ".d2line" := by
  obtain ⟨a, r, ha, -, hi⟩ := h
  exact ⟨_, hi, by simp [ha.1], ha.arg⟩

theorem D2File.kw {t file : Str} (h : D2File t file) : Kw t b! ".d2file" := ⟨_, h, by simp, by simp; decide⟩

theorem dbg_kw {t : Str} (h : get6502DbgInfo t ≠ none) : Kw t b! ".dbg" := by
  unfold get6502DbgInfo at h
  cases hm : source6502Dbg.fullMatch t with
  | some m =>
    obtain ⟨f, n, hd⟩ := source6502_form (t := t) (by rw [hm]; rfl)
    exact hd.kw
  | none =>
    rw [hm] at h
    simp only at h
    by_cases he : (source6502DbgEnd.search t).isSome = true
    · obtain ⟨u, w, rest, cs, rfl, hl⟩ := search_isSome.1 he
      unfold source6502DbgEnd at hl
      obtain ⟨w1, z, _, _, rfl, g1, k, rfl⟩ := lang_seq.1 hl
      obtain ⟨hu, -, bs, bs', hb, hb1, hb2, rfl⟩ := lang_instr g1
      obtain rfl : u = [] := List.eq_nil_of_length_eq_zero hu
      obtain ⟨rfl, rfl⟩ := lang_lit.1 k
      exact ⟨b! "line" ++ rest, ⟨bs, bs', hb, hb1, hb2, by simp only [List.append_assoc, List.nil_append]⟩, by simp, by simp; decide⟩
    · rw [if_neg he] at h
      exact (h rfl).elim

theorem SetsPos.kw {ts : List Seen} {t : Seen} {q : Option Pos} (h : SetsPos ts t q) (he : ¬ t.Ends) :
    (∃ i n c, LocLine t.text i n c ∧ i ≠ 0) ∨ (∃ k n, StabDirective t.text k n) ∨ (∃ f n, DbgDirective t.text f n) ∨ ∃ n, D2Line t.text n := by
  cases h with
  | ends h => exact (he h).elim
  | loc _ h h0 => exact .inl ⟨_, _, _, h, h0⟩
  | stab _ h => exact .inr (.inl ⟨_, _, h⟩)
  | stabEnd _ h => exact .inr (.inl ⟨_, _, h⟩)
  | dbg _ h => exact .inr (.inr (.inl ⟨_, _, h⟩))
  | d2 _ h => exact .inr (.inr (.inr ⟨_, h⟩))

/-! ### What the current source reference holds -/

/-- The source reference of the parser says the same as the position. -/
def Holds : Option Pos → TSource → Prop
  | none, s => s.fileIdx = 0 ∧ s.line = 0
  | some (.indexed i n c), s => i ≠ 0 ∧ s.fileIdx = i ∧ s.line = n ∧ s.column = c
  | some (.named f n), s => s.fileIdx = 0 ∧ s.file.s = f ∧ s.line = n ∧ s.column = 0

/-- Nothing happens to the lines, or `t` is a directive that sets a position and the labels at the end get the source reference
`src`: internal labels and the first other one. -/
def Amd (t : Seen) (ls ls' : List TLine) (src : TSource) : Prop :=
  (ls' = ls ∧ (¬ t.Ends → ¬ MovesLabels t.text)) ∨ MovesLabels t.text ∧ ∃ a labs, ls = a ++ labs ∧ (∀ l ∈ labs, l.isLabel = true) ∧
    (∀ x, a.getLast? = some x → x.isLabel = true → ∃ y, labs.head? = some y ∧ y.isInternalLabel = false) ∧
    ls' = a ++ labs.map (TLine.amend src) ∧ (∀ l ∈ labs.tail, l.isInternalLabel = true) ∧ ¬ t.Ends

theorem amendRev_split (src : TSource) (ls : List TLine) : ∃ labs a, ls = labs ++ a ∧ (∀ l ∈ labs, l.isLabel = true) ∧
    (∀ x, a.head? = some x → x.isLabel = true → ∃ y, labs.getLast? = some y ∧ y.isInternalLabel = false) ∧
    amendRev src ls = labs.map (TLine.amend src) ++ a ∧ ∀ l ∈ labs.dropLast, l.isInternalLabel = true := by
  induction ls with
  | nil => exact ⟨[], [], rfl, by simp, by simp, rfl, by simp⟩
  | cons l ls ih =>
    obtain ⟨labs, a, rfl, h1, h3, h2, h4⟩ := ih
    unfold amendRev
    split
    · rename_i h
      split
      · rename_i hi
        refine ⟨l :: labs, a, rfl, fun x hx => ?_, fun x hx hl => ?_, by rw [h2]; rfl, fun x hx => ?_⟩
        · rcases List.mem_cons.1 hx with rfl | hx
          · exact h
          · exact h1 x hx
        · obtain ⟨y, hy, hi⟩ := h3 x hx hl
          exact ⟨y, by rw [List.getLast?_cons, hy]; rfl, hi⟩
        · cases labs with
          | nil => simp at hx
          | cons m labs =>
            rw [List.dropLast_cons_of_ne_nil (by simp)] at hx
            rcases List.mem_cons.1 hx with rfl | hx
            · exact hi
            · exact h4 x hx
      · rename_i hi
        exact ⟨[l], labs ++ a, rfl, by simp [h], fun _ _ _ => ⟨l, rfl, by simpa using hi⟩, rfl, by simp⟩
    · rename_i h
      exact ⟨[], l :: (labs ++ a), rfl, by simp, fun x hx hl => by
        simp only [List.head?_cons, Option.some.injEq] at hx
        subst hx
        exact (h hl).elim, rfl, by simp⟩

theorem amd_amend {t : Seen} (h : MovesLabels t.text) (he : ¬ t.Ends) (p : TParser) (src : TSource) : Amd t p.lines (p.amendPreviousLinesWith src).lines src := by
  obtain ⟨labs, a, e, h1, h3, h2, h4⟩ := amendRev_split src p.lines.reverse
  refine .inr ⟨h, a.reverse, labs.reverse, ?_, fun l hl => h1 l (by simpa using hl), fun x hx hl => ?_, ?_, fun l hl => h4 l ?_, he⟩
  · rw [← List.reverse_append, ← e, List.reverse_reverse]
  · rw [List.getLast?_reverse] at hx
    obtain ⟨y, hy, hi⟩ := h3 x hx hl
    exact ⟨y, by rw [List.head?_reverse]; exact hy, hi⟩
  · show (amendRev src p.lines.reverse).reverse = _
    rw [h2, List.reverse_append, List.map_reverse]
  · rw [← List.mem_reverse, ← List.tail_reverse]
    exact hl

/-- No directive that gives a position to labels. -/
theorem no_move {t : Seen} (h1 : ∀ i n c, LocLine t.text i n c → i = 0) (h4 : ∀ n, ¬ D2Line t.text n) : ¬ t.Ends → ¬ MovesLabels t.text := by
  rintro - (⟨i, n, c, h, h0⟩ | ⟨n, h⟩)
  · exact h0 (h1 _ _ _ h)
  · exact h4 _ h

theorem mark_split (p : TParser) : p.markPreviousInternalLabelAsInsideProc.lines = p.lines ∨ ∃ a l, p.lines = a ++ [l] ∧ l.isLabel = true ∧
    p.markPreviousInternalLabelAsInsideProc.lines = a ++ [{ l with source := { l.source with insideProc := true } }] := by
  unfold TParser.markPreviousInternalLabelAsInsideProc
  simp only
  split
  · rename_i h
    have : p.lines = [] := by simpa using h
    exact .inl this.symm
  · rename_i l ls h
    have : p.lines = ls.reverse ++ [l] := by rw [← List.reverse_cons, ← h, List.reverse_reverse]
    rw [this]
    split
    · rename_i h'
      simp only [Bool.and_eq_true] at h'
      exact .inr ⟨ls.reverse, l, rfl, h'.1, by rw [List.reverse_cons]⟩
    · left; rw [List.reverse_cons]

/-- What a line does to the position, the table of file names and the D2 file name. -/
structure StepOk (ts : List Seen) (t : Seen) (p q : TParser) : Prop where
  pos : (∃ x, SetsPos ts t x ∧ Holds x q.st.currentSourceRef) ∨
    ((∀ x, ¬ SetsPos ts t x) ∧ q.st.currentSourceRef = p.st.currentSourceRef)
  files : (∃ i name, ¬ t.Ends ∧ FileDirective t.text i name ∧ q.files = assocSet i name p.files) ∨
    ((¬ t.Ends → ∀ i name, ¬ FileDirective t.text i name) ∧ q.files = p.files)
  d2 : (∃ name, ¬ t.Ends ∧ D2File t.text name ∧ q.st.currentSourceFile.s = name) ∨
    ((¬ t.Ends → ∀ name, ¬ D2File t.text name) ∧ q.st.currentSourceFile = p.st.currentSourceFile)
  lines : Amd t p.lines q.lines q.st.currentSourceRef

/-- No position, because the line is another directive. -/
theorem no_set {ts : List Seen} {t : Seen} (he : ¬ t.Ends) (h1 : ∀ i n c, LocLine t.text i n c → i = 0) (h2 : ∀ k n, ¬ StabDirective t.text k n)
    (h3 : ∀ f n, ¬ DbgDirective t.text f n) (h4 : ∀ n, ¬ D2Line t.text n) : ∀ x, ¬ SetsPos ts t x := by
  intro x hx
  rcases hx.kw he with ⟨i, n, c, h, h0⟩ | ⟨k, n, h⟩ | ⟨f, n, h⟩ | ⟨n, h⟩
  · exact h0 (h1 _ _ _ h)
  · exact h2 _ _ h
  · exact h3 _ _ h
  · exact h4 _ h

theorem kw_ne {t a b : Str} (h : Kw t a) (ha : KwWord a) (hb : KwWord b) (hne : a ≠ b) : ¬ Kw t b := fun h' => hne (h.eq h' ha hb)

theorem no_move_kw {t : Seen} {kw : Str} (h : Kw t.text kw) (hw : KwWord kw) (h1 : kw ≠ b! ".loc") (h2 : kw ≠ b! ".d2line") : ¬ t.Ends → ¬ MovesLabels t.text :=
  no_move (fun _ _ _ hl => absurd hl.kw (kw_ne h hw word_loc h1)) fun _ hl => kw_ne h hw word_d2line h2 hl.kw

theorem stepOk_file {ts : List Seen} {t : Seen} {name : Str} {i : Int} (p : TParser) (he : ¬ t.Ends) (h : FileDirective t.text i name) :
    StepOk ts t p { p with files := assocSet i name p.files } where
  pos := .inr ⟨no_set he (fun i n c hl => absurd hl.kw (kw_ne h.kw word_file word_loc (by decide)))
    (fun k n hl => absurd hl.kw (kw_ne h.kw word_file word_stabn (by decide)))
    (fun k n hl => absurd hl.kw (kw_ne h.kw word_file word_dbg (by decide)))
    (fun n hl => absurd hl.kw (kw_ne h.kw word_file word_d2line (by decide))), rfl⟩
  files := .inl ⟨i, name, he, h, rfl⟩
  d2 := .inr ⟨fun _ n hl => absurd hl.kw (kw_ne h.kw word_file word_d2file (by decide)), rfl⟩
  lines := .inl ⟨rfl, no_move_kw h.kw word_file (by decide) (by decide)⟩

/-- A directive other than `.file` and `.d2file`. -/
theorem stepOk_other {ts : List Seen} {t : Seen} {kw : Str} {p q : TParser} (hk : Kw t.text kw) (hw : KwWord kw) (h1 : kw ≠ b! ".file") (h2 : kw ≠ b! ".d2file")
    (pos : (∃ x, SetsPos ts t x ∧ Holds x q.st.currentSourceRef) ∨
      ((∀ x, ¬ SetsPos ts t x) ∧ q.st.currentSourceRef = p.st.currentSourceRef))
    (files : q.files = p.files) (d2 : q.st.currentSourceFile = p.st.currentSourceFile) (lines : Amd t p.lines q.lines q.st.currentSourceRef) :
    StepOk ts t p q where
  pos := pos
  files := .inr ⟨fun _ _ _ hl => kw_ne hk hw word_file h1 hl.kw, files⟩
  d2 := .inr ⟨fun _ _ hl => kw_ne hk hw word_d2file h2 hl.kw, d2⟩
  lines := lines

theorem step_d2 {ts : List Seen} {t : Seen} (p : TParser) (id : Nat) (hd : D2FileNamed ts p.st.currentSourceFile.s) (he : ¬ t.Ends)
    (h0 : ∀ i name, ¬ FileDirective t.text i name) (h1 : ∀ i n c, LocLine t.text i n c → i = 0) (h2 : ∀ k n, ¬ StabDirective t.text k n)
    (h3 : ∀ f n, ¬ DbgDirective t.text f n) : StepOk ts t p (match p.handleD2 id t.text with | some p => (p, true) | none => (p, false)).1 := by
  unfold TParser.handleD2
  cases hl : getD2LineInfo t.text with
  | some n =>
    have h4 := getD2Line_iff.1 hl
    exact stepOk_other h4.kw word_d2line (by decide) (by decide) (.inl ⟨_, .d2 he h4 hd, rfl, rfl, rfl, rfl⟩) rfl rfl
      (amd_amend (.inr ⟨_, h4⟩) he _ _)
  | none =>
    have h4 : ∀ n, ¬ D2Line t.text n := fun n h' => by rw [getD2Line_iff.2 h'] at hl; simp at hl
    have h5 : (∀ x, ¬ SetsPos ts t x) := no_set he h1 h2 h3 h4
    cases hf : getD2FileInfo t.text with
    | some f =>
      exact { pos := .inr ⟨h5, rfl⟩, files := .inr ⟨fun _ => h0, rfl⟩, d2 := .inl ⟨f, he, getD2File_iff.1 hf, rfl⟩, lines := .inl ⟨rfl, no_move h1 h4⟩ }
    | none =>
      have h6 : ∀ n, ¬ D2File t.text n := fun n h' => by rw [getD2File_iff.2 h'] at hf; simp at hf
      exact { pos := .inr ⟨h5, rfl⟩, files := .inr ⟨fun _ => h0, rfl⟩, d2 := .inr ⟨fun _ => h6, rfl⟩, lines := .inl ⟨rfl, no_move h1 h4⟩ }

theorem step_dbg {ts : List Seen} {t : Seen} (p : TParser) (id : Nat) (hd : D2FileNamed ts p.st.currentSourceFile.s) (he : ¬ t.Ends)
    (h0 : ∀ i name, ¬ FileDirective t.text i name) (h1 : ∀ i n c, LocLine t.text i n c → i = 0) (h2 : ∀ k n, ¬ StabDirective t.text k n) :
    StepOk ts t p (match p.handle6502 id t.text with
      | some p => (p, true)
      | none => match p.handleD2 id t.text with | some p => (p, true) | none => (p, false)).1 := by
  unfold TParser.handle6502
  rcases getDbg_cases t.text with ⟨f, n, h, e⟩ | ⟨h, e | e⟩
  · rw [e]
    exact stepOk_other h.kw word_dbg (by decide) (by decide) (.inl ⟨_, .dbg he h, rfl, rfl, rfl, rfl⟩) rfl rfl
      (.inl ⟨rfl, no_move_kw h.kw word_dbg (by decide) (by decide)⟩)
  · rw [e]
    exact step_d2 p id hd he h0 h1 h2 h
  · have hk := dbg_kw (t := t.text) (by rw [e]; simp)
    rw [e]
    exact stepOk_other hk word_dbg (by decide) (by decide)
      (.inr ⟨no_set he h1 h2 h fun n hl => kw_ne hk word_dbg word_d2line (by decide) hl.kw, rfl⟩) rfl rfl
      (.inl ⟨rfl, no_move_kw hk word_dbg (by decide) (by decide)⟩)

theorem step_stabs {ts : List Seen} {t : Seen} (p : TParser) (id : Nat) (hd : D2FileNamed ts p.st.currentSourceFile.s) (he : ¬ t.Ends)
    (h0 : ∀ i name, ¬ FileDirective t.text i name) (h1 : ∀ i n c, LocLine t.text i n c → i = 0) :
    StepOk ts t p (match p.handleStabs t.text with
      | some p => (p, true)
      | none => match p.handle6502 id t.text with
        | some p => (p, true)
        | none => match p.handleD2 id t.text with | some p => (p, true) | none => (p, false)).1 := by
  unfold TParser.handleStabs
  rcases getStabs_cases t.text with ⟨k, n, h, e⟩ | ⟨h, e⟩
  · rw [e]
    simp only [Option.map_some]
    by_cases h68 : k = 68
    · subst h68
      exact stepOk_other h.kw word_stabn (by decide) (by decide) (.inl ⟨_, .stab he h, rfl, rfl, rfl, rfl⟩) rfl rfl
            (.inl ⟨rfl, no_move_kw h.kw word_stabn (by decide) (by decide)⟩)
    · rw [if_neg h68]
      by_cases hk : k = 100 ∨ k = 132
      · rw [if_pos hk]
        exact stepOk_other h.kw word_stabn (by decide) (by decide) (.inl ⟨_, .stabEnd he h hk, rfl, rfl⟩) rfl rfl
            (.inl ⟨rfl, no_move_kw h.kw word_stabn (by decide) (by decide)⟩)
      · rw [if_neg hk]
        refine stepOk_other h.kw word_stabn (by decide) (by decide) (.inr ⟨?_, rfl⟩) rfl rfl
            (.inl ⟨rfl, no_move_kw h.kw word_stabn (by decide) (by decide)⟩)
        have hu : ∀ k' n', StabDirective t.text k' n' → k' = k := fun k' n' h' => by
          have := getStabs_of h'
          rw [e] at this
          simp only [Option.some.injEq, Prod.mk.injEq] at this
          exact this.1.symm
        intro x hx
        cases hx with
        | ends h => exact he h
        | loc _ h' => exact kw_ne h.kw word_stabn word_loc (by decide) h'.kw
        | stab _ h' => exact h68 (hu _ _ h').symm
        | stabEnd _ h' hk' => rw [hu _ _ h'] at hk'; exact hk hk'
        | dbg _ h' => exact kw_ne h.kw word_stabn word_dbg (by decide) h'.kw
        | d2 _ h' => exact kw_ne h.kw word_stabn word_d2line (by decide) h'.kw
  · rw [e]
    exact step_dbg p id hd he h0 h1 h

theorem source_step {ts : List Seen} {t : Seen} (p : TParser) (ln : TLine) (ht : t.text = ln.text) (hc : t.code = p.st.inNvccCode)
    (hd : D2FileNamed ts p.st.currentSourceFile.s) : StepOk ts t p (p.handleSourceDirectives ln).1 := by
  unfold TParser.handleSourceDirectives
  have hend : (endBlock ln.text || (p.st.inNvccCode && ln.text.contains c! '}')) = true ↔ t.Ends := by
    rw [Bool.or_eq_true, endBlock_iff, Bool.and_eq_true, List.contains_iff_mem, ← ht, ← hc]; rfl
  split
  · rename_i h
    have h := hend.1 h
    exact { pos := .inl ⟨none, .ends h, rfl, rfl⟩, files := .inr ⟨fun h' => (h' h).elim, rfl⟩, d2 := .inr ⟨fun h' => (h' h).elim, rfl⟩,
            lines := .inl ⟨rfl, fun h' => (h' h).elim⟩ }
  · rename_i h
    have he : ¬ t.Ends := fun h' => h (hend.2 h')
    clear h hend
    rw [← ht]
    unfold TParser.handleFiledef
    cases hf : getFileDef t.text with
    | some d =>
      obtain ⟨i, name⟩ := d
      exact stepOk_file p he (getFileDef_iff.1 hf)
    | none =>
      have nofile : ∀ i name, ¬ FileDirective t.text i name := fun i name h' => by rw [getFileDef_iff.2 h'] at hf; simp at hf
      simp only [Option.map_none]
      unfold TParser.handleSource
      rcases getSourceRef_cases t.text with ⟨i, n, c, hl, e⟩ | ⟨hl, e⟩
      · by_cases hi : i = 0
        · rw [e]
          simp only [ne_eq, hi, not_true_eq_false, if_false]
          exact step_stabs p ln.id hd he nofile fun i' n' c' h' => by
            have := getSourceRef_of h'
            rw [e] at this
            simp only [Prod.mk.injEq] at this
            rw [← this.1, hi]
        · rw [e]
          simp only [ne_eq, hi, not_false_eq_true, if_true]
          exact stepOk_other hl.kw word_loc (by decide) (by decide) (.inl ⟨_, .loc he hl hi, hi, rfl, rfl, rfl⟩) rfl rfl
            (amd_amend (.inl ⟨_, _, _, hl, hi⟩) he _ _)
      · rw [e]
        simp only [ne_eq, not_true_eq_false, if_false]
        exact step_stabs p ln.id hd he nofile fun i' n' c' h' => (hl _ _ _ h').elim

/-! ### The tables of file names -/

theorem lookup_assocSet (i j : Int) (n : Str) (m : List (Int × Str)) : (assocSet i n m).lookup j = if j = i then some n else m.lookup j := by
  induction m with
  | nil =>
    unfold assocSet
    simp only [List.lookup]
    by_cases h : j = i
    · simp [h]
    · simp [h, show (j == i) = false by simpa using h]
  | cons x m ih =>
    obtain ⟨k, v⟩ := x
    unfold assocSet
    by_cases hk : k = i
    · subst hk
      simp only [beq_self_eq_true, if_true, List.lookup]
      by_cases h : j = k
      · simp [h]
      · simp [h, show (j == k) = false by simpa using h]
    · rw [if_neg (by simpa using hk)]
      simp only [List.lookup]
      by_cases h : j = k
      · subst h
        simp [hk]
      · simp [show (j == k) = false by simpa using h, ih]

theorem fileNamed_snoc {ts : List Seen} {t : Seen} {j : Int} {name : Str} : FileNamed (ts ++ [t]) j name ↔
    (¬ t.Ends ∧ FileDirective t.text j name) ∨ ((¬ t.Ends → ∀ n, ¬ FileDirective t.text j n) ∧ FileNamed ts j name) := by
  constructor
  · rintro ⟨a, x, b, e, h1, h2, h3⟩
    rcases List.eq_nil_or_concat b with rfl | ⟨b, y, rfl⟩
    · have := List.append_inj' e rfl
      obtain ⟨rfl, hx⟩ := this
      simp only [List.cons.injEq, and_true] at hx
      subst hx
      exact .inl ⟨h1, h2⟩
    · have e' : ts ++ [t] = (a ++ x :: b) ++ [y] := by rw [e]; simp
      obtain ⟨rfl, hx⟩ := List.append_inj' e' rfl
      simp only [List.cons.injEq, and_true] at hx
      subst hx
      exact .inr ⟨h3 t (by simp), a, x, b, rfl, h1, h2, fun z hz => h3 z (by simp [hz])⟩
  · rintro (⟨h1, h2⟩ | ⟨h1, a, x, b, rfl, h2, h3, h4⟩)
    · exact ⟨ts, t, [], rfl, h1, h2, by simp⟩
    · refine ⟨a, x, b ++ [t], by simp, h2, h3, fun z hz => ?_⟩
      rcases List.mem_append.1 hz with hz | hz
      · exact h4 z hz
      · rw [List.mem_singleton] at hz; subst hz; exact h1

theorem d2FileNamed_snoc {ts : List Seen} {t : Seen} {name : Str} : D2FileNamed (ts ++ [t]) name ↔
    (¬ t.Ends ∧ D2File t.text name) ∨ ((¬ t.Ends → ∀ n, ¬ D2File t.text n) ∧ D2FileNamed ts name) := by
  constructor
  · rintro (⟨rfl, h⟩ | ⟨a, x, b, e, h1, h2, h3⟩)
    · exact .inr ⟨h t (by simp), .inl ⟨rfl, fun z hz => h z (by simp [hz])⟩⟩
    rcases List.eq_nil_or_concat b with rfl | ⟨b, y, rfl⟩
    · have := List.append_inj' e rfl
      obtain ⟨rfl, hx⟩ := this
      simp only [List.cons.injEq, and_true] at hx
      subst hx
      exact .inl ⟨h1, h2⟩
    · have e' : ts ++ [t] = (a ++ x :: b) ++ [y] := by rw [e]; simp
      obtain ⟨rfl, hx⟩ := List.append_inj' e' rfl
      simp only [List.cons.injEq, and_true] at hx
      subst hx
      exact .inr ⟨h3 t (by simp), .inr ⟨a, x, b, rfl, h1, h2, fun z hz => h3 z (by simp [hz])⟩⟩
  · rintro (⟨h1, h2⟩ | ⟨h1, ⟨rfl, h2⟩ | ⟨a, x, b, rfl, h2, h3, h4⟩⟩)
    · exact .inr ⟨ts, t, [], rfl, h1, h2, by simp⟩
    · refine .inl ⟨rfl, fun z hz => ?_⟩
      rcases List.mem_append.1 hz with hz | hz
      · exact h2 z hz
      · rw [List.mem_singleton] at hz; subst hz; exact h1
    · refine .inr ⟨a, x, b ++ [t], by simp, h2, h3, fun z hz => ?_⟩
      rcases List.mem_append.1 hz with hz | hz
      · exact h4 z hz
      · rw [List.mem_singleton] at hz; subst hz; exact h1

/-! ### Positions are unique -/

theorem FileDirective.unique {t : Str} {i j : Int} {a b : Str} (h : FileDirective t i a) (h' : FileDirective t j b) : i = j ∧ a = b := by
  have := getFileDef_iff.2 h
  rw [getFileDef_iff.2 h'] at this
  simp only [Option.some.injEq, Prod.mk.injEq] at this
  exact ⟨this.1.symm, this.2.symm⟩

theorem snoc_induction {α : Type} {P : List α → Prop} (nil : P []) (snoc : ∀ l a, P l → P (l ++ [a])) (l : List α) : P l := by
  have : ∀ l : List α, P l.reverse := by
    intro l
    induction l with
    | nil => exact nil
    | cons a l ih => rw [List.reverse_cons]; exact snoc _ _ ih
  rw [← List.reverse_reverse l]
  exact this _

theorem FileNamed.unique {ts : List Seen} {i : Int} {a b : Str} : FileNamed ts i a → FileNamed ts i b → a = b := by
  induction ts using snoc_induction with
  | nil => rintro ⟨x, y, z, e, -⟩ -; simp at e
  | snoc ts t ih =>
    rw [fileNamed_snoc, fileNamed_snoc]
    rintro (⟨h1, h2⟩ | ⟨h1, h2⟩) (⟨h3, h4⟩ | ⟨h3, h4⟩)
    · exact (h2.unique h4).2
    · exact (h3 h1 _ h2).elim
    · exact (h1 h3 _ h4).elim
    · exact ih h2 h4

theorem D2FileNamed.unique {ts : List Seen} {a b : Str} : D2FileNamed ts a → D2FileNamed ts b → a = b := by
  induction ts using snoc_induction with
  | nil =>
    rintro (⟨rfl, -⟩ | ⟨x, y, z, e, -⟩) (⟨rfl, -⟩ | ⟨x, y, z, e, -⟩) <;> first | rfl | simp at e
  | snoc ts t ih =>
    rw [d2FileNamed_snoc, d2FileNamed_snoc]
    rintro (⟨h1, h2⟩ | ⟨h1, h2⟩) (⟨h3, h4⟩ | ⟨h3, h4⟩)
    · exact h2.unique h4
    · exact (h3 h1 _ h2).elim
    · exact (h1 h3 _ h4).elim
    · exact ih h2 h4

theorem SetsPos.unique {ts : List Seen} {t : Seen} {q q' : Option Pos} (h : SetsPos ts t q) (h' : SetsPos ts t q') : q = q' := by
  have stab : ∀ {k n k' n'}, StabDirective t.text k n → StabDirective t.text k' n' → k = k' ∧ (k = 68 → n = n') := by
    intro k n k' n' g g'
    have e := getStabs_of g
    rw [getStabs_of g'] at e
    simp only [Option.some.injEq, Prod.mk.injEq] at e
    obtain ⟨rfl, e⟩ := e
    exact ⟨rfl, fun h => by rw [if_pos h, if_pos h] at e; exact e.symm⟩
  cases h with
  | ends h => cases h' <;> first | rfl | exact absurd h ‹_›
  | loc he h h0 =>
    cases h' with
    | ends h' => exact absurd h' he
    | loc _ g =>
      have e := getSourceRef_of h
      rw [getSourceRef_of g] at e
      simp only [Prod.mk.injEq] at e
      obtain ⟨rfl, rfl, rfl⟩ := e
      rfl
    | stab _ g => exact absurd g.kw (kw_ne h.kw word_loc word_stabn (by decide))
    | stabEnd _ g => exact absurd g.kw (kw_ne h.kw word_loc word_stabn (by decide))
    | dbg _ g => exact absurd g.kw (kw_ne h.kw word_loc word_dbg (by decide))
    | d2 _ g => exact absurd g.kw (kw_ne h.kw word_loc word_d2line (by decide))
  | stab he h =>
    cases h' with
    | ends h' => exact absurd h' he
    | loc _ g => exact absurd g.kw (kw_ne h.kw word_stabn word_loc (by decide))
    | stab _ g => rw [(stab h g).2 rfl]
    | stabEnd _ g hk => have := (stab h g).1; omega
    | dbg _ g => exact absurd g.kw (kw_ne h.kw word_stabn word_dbg (by decide))
    | d2 _ g => exact absurd g.kw (kw_ne h.kw word_stabn word_d2line (by decide))
  | stabEnd he h hk =>
    cases h' with
    | ends h' => rfl
    | loc _ g => exact absurd g.kw (kw_ne h.kw word_stabn word_loc (by decide))
    | stab _ g => have := (stab h g).1; omega
    | stabEnd _ g hk => rfl
    | dbg _ g => exact absurd g.kw (kw_ne h.kw word_stabn word_dbg (by decide))
    | d2 _ g => exact absurd g.kw (kw_ne h.kw word_stabn word_d2line (by decide))
  | dbg he h =>
    cases h' with
    | ends h' => exact absurd h' he
    | loc _ g => exact absurd g.kw (kw_ne h.kw word_dbg word_loc (by decide))
    | stab _ g => exact absurd g.kw (kw_ne h.kw word_dbg word_stabn (by decide))
    | stabEnd _ g => exact absurd g.kw (kw_ne h.kw word_dbg word_stabn (by decide))
    | dbg _ g =>
      have e := getDbg_of h
      rw [getDbg_of g] at e
      simp only [Option.some.injEq, Dbg6502.mk.injEq, and_true] at e
      obtain ⟨rfl, rfl⟩ := e
      rfl
    | d2 _ g => exact absurd g.kw (kw_ne h.kw word_dbg word_d2line (by decide))
  | d2 he h hf =>
    cases h' with
    | ends h' => exact absurd h' he
    | loc _ g => exact absurd g.kw (kw_ne h.kw word_d2line word_loc (by decide))
    | stab _ g => exact absurd g.kw (kw_ne h.kw word_d2line word_stabn (by decide))
    | stabEnd _ g => exact absurd g.kw (kw_ne h.kw word_d2line word_stabn (by decide))
    | dbg _ g => exact absurd g.kw (kw_ne h.kw word_d2line word_dbg (by decide))
    | d2 _ g gf =>
      have e := getD2Line_of h
      rw [getD2Line_of g] at e
      simp only [Option.some.injEq] at e
      rw [e, hf.unique gf]

theorem positionAt_snoc {ts : List Seen} {t : Seen} {q : Option Pos} : PositionAt (ts ++ [t]) q ↔
    SetsPos ts t q ∨ (PositionAt ts q ∧ ∀ q', ¬ SetsPos ts t q') := by
  constructor
  · intro h
    generalize hx : ts ++ [t] = x at h
    cases h with
    | start => simp at hx
    | set h =>
      obtain ⟨rfl, e⟩ := List.append_inj' hx rfl
      simp only [List.cons.injEq, and_true] at e
      subst e
      exact .inl h
    | keep h h' =>
      obtain ⟨rfl, e⟩ := List.append_inj' hx rfl
      simp only [List.cons.injEq, and_true] at e
      subst e
      exact .inr ⟨h, h'⟩
  · rintro (h | ⟨h, h'⟩)
    · exact .set h
    · exact .keep h h'

theorem positionAt_nil {q : Option Pos} (h : PositionAt [] q) : q = none := by
  generalize hx : ([] : List Seen) = x at h
  cases h with
  | start => rfl
  | set => simp at hx
  | keep => simp at hx

theorem PositionAt.unique {ts : List Seen} {q q' : Option Pos} : PositionAt ts q → PositionAt ts q' → q = q' := by
  induction ts using snoc_induction with
  | nil => exact fun h h' => (positionAt_nil h).trans (positionAt_nil h').symm
  | snoc ts t ih =>
    rw [positionAt_snoc, positionAt_snoc]
    rintro (h | ⟨h, h1⟩) (h' | ⟨h', h2⟩)
    · exact h.unique h'
    · exact (h2 _ h).elim
    · exact (h1 _ h').elim
    · exact ih h h'

end AsmParser
