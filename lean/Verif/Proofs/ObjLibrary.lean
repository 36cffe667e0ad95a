/-
Helper lemmas: removal of library functions by the objdump parser.
-/
import Verif.Proofs.ObjLines
import Verif.Spec.Names

namespace AsmParser

/-! ### Functions that stay contain user code -/

/-- The lines with 1-based numbers `i..j-1`. -/
def seg (ls : List AsmLine) (i j : Nat) : List AsmLine := (ls.take (j - 1)).drop (i - 1)

/-- Some line of the list is attributed to user code. -/
def HasUser (ls : List AsmLine) : Prop := ∃ l ∈ ls, l.source.isUsercode = true

/-- Every two consecutive labels enclose user code. -/
def Enclosed (ls : List AsmLine) (labels : List LabelPair) : Prop :=
  ∀ A B n i m j, labels = A ++ (n, i) :: (m, j) :: B → HasUser (seg ls i j) ∧ j ≤ ls.length + 1

theorem seg_append {ls x : List AsmLine} {i j : Nat} (h : j ≤ ls.length + 1) :
    seg (ls ++ x) i j = seg ls i j := by
  unfold seg
  rw [List.take_append_of_le_length (by omega)]

theorem Enclosed.append {ls x : List AsmLine} {labels : List LabelPair} (h : Enclosed ls labels) :
    Enclosed (ls ++ x) labels := by
  intro A B n i m j e
  obtain ⟨h1, h2⟩ := h A B n i m j e
  refine ⟨by rw [seg_append h2]; exact h1, by simp; omega⟩

/-- The last label is followed by user code (or there is no label). -/
def LastUser (p : OParser) : Prop :=
  ∀ T n i, p.labels = T ++ [(n, i)] → HasUser (p.lines.drop (i - 1))

theorem seg_take {ls : List AsmLine} {i j k : Nat} (h : j ≤ k) : seg (ls.take (k - 1)) i j = seg ls i j := by
  unfold seg
  rw [List.take_take]
  congr 2; omega

theorem prune_enclosed {p : OParser} (hf : p.filter.libraryFunctions = true)
    (ht : p.labels = labelTable 1 p.lines) (h : Enclosed p.lines p.labels) :
    Enclosed p.prune.lines p.prune.labels ∧ LastUser p.prune := by
  unfold OParser.prune OParser.maybeRemoveLastFunction
  rw [if_pos hf]
  cases hl : p.labels.getLast? with
  | none =>
    refine ⟨h, ?_⟩
    intro T n i e
    simp only at e
    rw [e] at hl; simp at hl
  | some x =>
    obtain ⟨T, hT⟩ := List.getLast?_eq_some_iff.1 hl
    dsimp only
    split
    · rename_i hu
      refine ⟨h, ?_⟩
      intro T' n i e
      rw [hT] at e
      have := List.append_inj' e rfl
      obtain ⟨-, e2⟩ := this
      simp only [List.cons.injEq, and_true] at e2
      subst e2
      simp only [List.any_eq_true] at hu
      exact hu
    · have hsort : (T ++ [x]).Pairwise (fun a b => a.2 < b.2) := by
        rw [← hT, ht]; exact labelTable_pairwise _ _
      have hx : x.2 < 1 + p.lines.length :=
        (labelTable_lt (name := x.1) (i := x.2) (n := 1) (ls := p.lines) (by rw [← ht, hT]; simp)).2
      have hlt : ∀ d ∈ T, d.2 < x.2 := by
        intro d hd
        exact (List.pairwise_append.1 hsort).2.2 d hd x (by simp)
      dsimp only
      rw [hT, List.dropLast_concat]
      constructor
      · intro A B n i m j e
        have := h A (B ++ [x]) n i m j (by rw [hT, e]; simp)
        have hj := hlt (m, j) (by rw [e]; simp)
        simp only at hj
        refine ⟨by rw [seg_take (by omega)]; exact this.1, ?_⟩
        rw [List.length_take]; omega
      · intro T' n i e
        simp only at e
        have := h T' [] n i x.1 x.2 (by rw [hT, e]; simp)
        exact this.1

theorem Enclosed.snoc {p : OParser} (hc : Enclosed p.lines p.labels) (hl : LastUser p) (n : Str) (x : AsmLine) :
    Enclosed (p.lines ++ [x]) (p.labels ++ [(n, p.lines.length + 1)]) := by
  intro A B n' i m j e
  cases B using snoc_induct with
  | nil =>
    have e' : p.labels ++ [(n, p.lines.length + 1)] = (A ++ [(n', i)]) ++ [(m, j)] := by simpa using e
    have := List.append_inj' e' rfl
    obtain ⟨e1, e2⟩ := this
    simp only [List.cons.injEq, Prod.mk.injEq, and_true] at e2
    have hu := hl _ _ _ e1
    obtain ⟨-, rfl⟩ := e2
    refine ⟨?_, by simp⟩
    have : seg (p.lines ++ [x]) i (p.lines.length + 1) = p.lines.drop (i - 1) := by
      unfold seg; simp
    rw [this]; exact hu
  | snoc B b _ =>
    have e' : p.labels ++ [(n, p.lines.length + 1)] = (A ++ (n', i) :: (m, j) :: B) ++ [b] := by simpa using e
    have := List.append_inj' e' rfl
    exact hc.append A B n' i m j this.1

theorem enclosed_parse (L : Locale) (f : Filter) (hf : f.libraryFunctions = true) (s : Str) :
    Enclosed (objParse L f s).lines (objParse L f s).labels := by
  have hg := Good.parse L f s
  induction s using snoc_induct with
  | nil => intro A B n i m j e; simp [objParse_eq, start] at e
  | snoc s c ih =>
    have ih := ih (Good.parse L f s)
    have hg0 := Good.parse L f s
    rw [objParse_append]
    simp only [List.foldl_cons, List.foldl_nil]
    have hm := Modes.parse L f s
    have hfp := parse_filter L f s
    generalize objParse L f s = p at ih hg0 hm hfp
    by_cases hs : p.st.stopParsing = true
    · rw [feed_stop hs]; exact ih
    have hs := Bool.eq_false_of_ne hs
    refine feed_cases (P := fun q => Enclosed q.lines q.labels) hs ih (fun _ => ?_) (fun _ _ _ => ih)
    have hp := prune_enclosed (by rw [hfp]; exact hf) (hg0.table hs) ih
    refine eol_cases (P := fun q => Enclosed q.lines q.labels) ?_ ?_ ?_ ?_ ?_ ?_ ?_ ?_
    · intros; exact ih
    · intros; exact ih
    · intros; exact ih.append
    · intros; exact ih.append
    · intros; exact hp.1
    · intro hl _ _ hsrc
      have := (hm.lbl hl).2.2.2.2.1
      rw [hsrc] at this; cases this
    · intros; exact hp.1.snoc hp.2 _ _
    · intros; exact hp.1.snoc hp.2 _ _

/-! ### Source attribution -/

/-- The current source reference is unset, or its user-code flag says that its file is not in a library. -/
theorem fileInLibrary_eq (p : Str) : fileInLibrary p = inLibrary p := by
  simp [fileInLibrary, inLibrary, libraryDirs, startsWith, Bool.or_assoc]

def SrcOk (r : AsmSource) : Prop := r = {} ∨ r.isUsercode = !fileInLibrary r.file

theorem srcUpd_ok {s : OState} (h : SrcOk s.currentSourceRef) (hu : s.currentSourceRef = {} → atoi s.text ≤ 0 ∨ srcUb s = true) :
    SrcOk (srcUpd s) := by
  unfold srcUpd
  split
  · exact h
  split
  · rename_i h1 h2
    rcases h with h | h
    · rcases hu h with h3 | h3
      · omega
      · simp [h3] at h1
    · exact .inr h
  · exact h

/-- Invariant: source references of lines and of the state. -/
structure SrcInv (p : OParser) : Prop where
  st : SrcOk p.st.currentSourceRef
  num : p.st.inSourceRefLineNumber = true → p.st.currentSourceRef.isUsercode = !fileInLibrary p.st.currentSourceRef.file
  lines : ∀ l ∈ p.lines, SrcOk l.source

theorem srcUpd_ok' {s : OState} (h : s.currentSourceRef.isUsercode = !fileInLibrary s.currentSourceRef.file) :
    SrcOk (srcUpd s) := by
  unfold srcUpd
  split
  · exact .inr h
  split
  · exact .inr h
  · exact .inr h

theorem srcUpd_file (s : OState) : (srcUpd s).file = s.currentSourceRef.file ∧
    (srcUpd s).isUsercode = s.currentSourceRef.isUsercode := by
  unfold srcUpd
  split
  · exact ⟨rfl, rfl⟩
  split <;> exact ⟨rfl, rfl⟩

theorem SrcInv.step {L : Locale} {f : Filter} {s : OState} {c : Byte} (hm : Modes s)
    (h1 : SrcOk s.currentSourceRef)
    (h2 : s.inSourceRefLineNumber = true → s.currentSourceRef.isUsercode = !fileInLibrary s.currentSourceRef.file) :
    SrcOk (s.step L f c).currentSourceRef ∧ ((s.step L f c).inSourceRefLineNumber = true →
      (s.step L f c).currentSourceRef.isUsercode = !fileInLibrary (s.step L f c).currentSourceRef.file) := by
  refine step_cases (P := fun s => SrcOk s.currentSourceRef ∧ (s.inSourceRefLineNumber = true →
      s.currentSourceRef.isUsercode = !fileInLibrary s.currentSourceRef.file)) ?_ ?_ ?_ ?_ ?_ ?_ ?_ ?_ ?_ ?_ ?_ ?_ ?_ ?_ ?_ ?_ ?_ ?_ ?_ ?_ ?_ ?_
  case refine_5 => intro ha _ hs; have := hm.addr ha; simp_all
  case refine_8 => intro ha _ hs; have := hm.addr ha; simp_all
  case refine_17 => intros; exact ⟨.inr rfl, fun _ => rfl⟩
  case refine_18 =>
    intros
    rename_i hn _
    refine ⟨srcUpd_ok' (h2 hn), fun _ => ?_⟩
    show (srcUpd s).isUsercode = !fileInLibrary (srcUpd s).file
    rw [(srcUpd_file s).1, (srcUpd_file s).2]; exact h2 hn
  all_goals intros; exact ⟨h1, h2⟩

theorem SrcInv.parse (L : Locale) (f : Filter) (s : Str) : SrcInv (objParse L f s) := by
  refine objParse_induct' (P := SrcInv) ⟨.inl rfl, by simp [start], by simp [start]⟩ ?_ s
  intro p c hm _ h hs
  refine feed_cases (P := SrcInv) hs h (fun _ => ?_) (fun _ _ _ => ?_)
  · refine eol_cases (P := SrcInv) ?_ ?_ ?_ ?_ ?_ ?_ ?_ ?_
    · intros; exact ⟨h.st, fun h => by simp [OState.commonReset] at h, h.lines⟩
    · intro _ _ hn
      refine ⟨?_, fun h => by simp [OState.commonReset] at h, h.lines⟩
      simp only [OState.commonReset, updateSourceRef_eq]; exact srcUpd_ok' (h.num hn)
    · intros
      refine ⟨h.st, fun h => by simp [OState.commonReset] at h, ?_⟩
      intro l hl
      simp only [List.mem_append, List.mem_singleton] at hl
      rcases hl with hl | rfl
      · exact h.lines l hl
      · exact h.st
    · intros
      refine ⟨h.st, fun h => by simp [OState.commonReset] at h, ?_⟩
      intro l hl
      simp only [List.mem_append, List.mem_singleton] at hl
      rcases hl with hl | rfl
      · exact h.lines l hl
      · exact .inl rfl
    · intros
      exact ⟨h.st, fun h => by simp [OState.commonReset] at h, fun l hl => h.lines l (prune_mem hl)⟩
    · intro hl _ _ hsrc
      have := (hm.lbl hl).2.2.2.2.1
      rw [hsrc] at this; cases this
    · intros
      refine ⟨h.st, fun h => by simp [OState.commonReset] at h, ?_⟩
      intro l hl
      simp only [List.mem_append, List.mem_singleton] at hl
      rcases hl with hl | rfl
      · exact h.lines l (prune_mem hl)
      · exact h.st
    · intros
      refine ⟨h.st, fun h => by simp [OState.commonReset] at h, ?_⟩
      intro l hl
      simp only [List.mem_append, List.mem_singleton] at hl
      rcases hl with hl | rfl
      · exact h.lines l (prune_mem hl)
      · exact .inl rfl
  · have := SrcInv.step (L := L) (f := p.filter) (c := c) hm h.st h.num
    exact ⟨this.1, this.2, h.lines⟩

/-! ### Simulation with and without the filter -/

/-- `q` is `p` with the filter `library_functions` on. -/
structure Sim (p q : OParser) : Prop where
  filter : q.filter = { p.filter with libraryFunctions := true }
  off : p.filter.libraryFunctions = false
  st : q.st = p.st
  sub : q.lines.Sublist p.lines
  user : q.lines.filter (·.source.isUsercode) = p.lines.filter (·.source.isUsercode)
  names : (q.labels.map (·.1)).Sublist (p.labels.map (·.1))
  table : q.labels = labelTable 1 q.lines

theorem ignore_congr (n : Str) (f : Filter) (b : Bool) :
    shouldIgnoreFunction n { f with libraryFunctions := b } = shouldIgnoreFunction n f := rfl

theorem step_congr (L : Locale) (f : Filter) (b : Bool) (s : OState) (c : Byte) :
    s.step L { f with libraryFunctions := b } c = s.step L f c := by
  have : ∀ s : OState, s.labelref L { f with libraryFunctions := b } = s.labelref L f := fun s => rfl
  unfold OState.step OState.stepText
  simp only [this]

theorem prune_sim {p q : OParser} (h : Sim p q) :
    q.prune.st = p.st ∧ q.prune.lines.Sublist p.lines ∧
    q.prune.lines.filter (·.source.isUsercode) = p.lines.filter (·.source.isUsercode) ∧
    (q.prune.labels.map (·.1)).Sublist (p.labels.map (·.1)) ∧
    q.prune.labels = labelTable 1 q.prune.lines ∧ q.prune.filter = q.filter := by
  have ht := prune_table h.table
  have : q.prune.st = p.st := by
    have e := prune_frame q
    rw [e]; dsimp only; rw [ht.2, h.st]
  refine ⟨this, ?_, ?_, ?_, ht.1, by rw [prune_frame]⟩
  · refine prune_cases (P := fun r => r.lines.Sublist p.lines) h.sub ?_
    intro T n i _ _ _
    exact (List.take_sublist _ _).trans h.sub
  · refine prune_cases (P := fun r => r.lines.filter (·.source.isUsercode) = _) h.user ?_
    intro T n i _ _ hu
    rw [← h.user]
    conv => rhs; rw [← List.take_append_drop (i - 1) q.lines, List.filter_append]
    have : (q.lines.drop (i - 1)).filter (·.source.isUsercode) = [] := by
      rw [List.filter_eq_nil_iff]; intro l hl; simp [hu l hl]
    simp [this]
  · refine prune_cases (P := fun r => (r.labels.map (·.1)).Sublist (p.labels.map (·.1))) h.names ?_
    intro T n i _ hT _
    refine List.Sublist.trans ?_ h.names
    rw [hT]; simp

theorem prune_off {p : OParser} (h : p.filter.libraryFunctions = false) : p.prune = p := by
  simp [OParser.prune, h]

theorem eol_sim {p q : OParser} (hm : Modes p.st) (h : Sim p q) (hlen : p.eol.lines.length ≤ 5000) :
    Sim p.eol q.eol := by
  have hp := prune_sim h
  have hsub := h.sub.length_le
  have hsub' := hp.2.1.length_le
  have hpo := prune_off h.off
  have hig : ∀ n, shouldIgnoreFunction n q.filter = shouldIgnoreFunction n p.filter := by
    intro n; rw [h.filter]; rfl
  have lbl : q.st.inLabel = p.st.inLabel := by rw [h.st]
  revert hlen
  by_cases hl : p.st.inLabel = true ∧ p.st.text ≠ []
  · have hns := (hm.lbl hl.1).2.2.2.2.1
    have e1 : p.eol = (p.label.eolTail).setTot (p.totalLines + 1) := by rw [eol_eq, if_pos hl.1]
    have e2 : q.eol = (q.label.eolTail).setTot (q.totalLines + 1) := by
      rw [eol_eq, if_pos (by rw [lbl]; exact hl.1)]
    cases hi : shouldIgnoreFunction (labelText p.st.text) p.filter
    · rw [e1, e2, label_kept hl.2 hi, label_kept (p := q) (by rw [h.st]; exact hl.2) (by rw [h.st, hig]; exact hi)]
      rw [hpo]
      simp only [OParser.eolTail, h.st, hns, hp.1, OParser.setTot]
      intro hlen
      have hlt : p.lines.length < maxLines := by
        by_cases hlt : p.lines.length < maxLines
        · exact hlt
        · simp only [Bool.false_eq_true, ↓reduceIte, hlt] at hlen
          simp [maxLines] at hlen hlt; omega
      have hlt' : q.prune.lines.length < maxLines := by omega
      simp only [hlt, hlt']
      constructor
      · simp [hp.2.2.2.2.2, h.filter]
      · simp [h.off]
      · simp
      · simp [OState.finishLine]; exact hp.2.1
      · simp [OState.finishLine, hp.2.2.1]
      · simp; exact hp.2.2.2.1
      · simp [labelTable_append, labelTable, OState.finishLine, ← hp.2.2.2.2.1, Nat.add_comm]
    · rw [e1, e2, label_ignored hl.2 hi, label_ignored (p := q) (by rw [h.st]; exact hl.2) (by rw [h.st, hig]; exact hi)]
      rw [hpo]
      simp only [OParser.eolTail, h.st, hp.1, OParser.setTot]
      intro _
      constructor
      · simp [hp.2.2.2.2.2, h.filter]
      · simp [h.off]
      · simp
      · simp; exact hp.2.1
      · simp [hp.2.2.1]
      · simp; exact hp.2.2.2.1
      · simp [← hp.2.2.2.2.1]
  · have key : ∀ r : OParser, ¬ (r.st.inLabel = true ∧ r.st.text ≠ []) →
        r.eol = (r.eolTail).setTot (r.totalLines + 1) := by
      intro r hr
      rw [eol_eq]
      split
      · rename_i h1
        have h2 : r.st.text = [] := by
          by_cases h2 : r.st.text = []
          · exact h2
          · exact absurd ⟨h1, h2⟩ hr
        rw [label_nil h2]
        unfold OParser.eolTail OParser.setTot
        dsimp only
        simp only [h2]
        split
        · rfl
        split
        · simp [updateSourceRef_eq, srcUpd, srcUb, h2, OState.commonReset]
        · rfl
      · rfl
    rw [key p hl, key q (by rw [h.st]; exact hl)]
    simp only [OParser.eolTail, h.st, OParser.setTot]
    intro hlen
    by_cases h1 : p.st.ignoreUntilNextLabel = true
    · simp only [h1, ↓reduceIte]
      exact ⟨h.filter, h.off, rfl, h.sub, h.user, h.names, h.table⟩
    simp only [h1, Bool.false_eq_true, ↓reduceIte] at hlen ⊢
    by_cases h2 : p.st.inSourceRefLineNumber = true
    · simp only [h2, ↓reduceIte]
      exact ⟨h.filter, h.off, rfl, h.sub, h.user, h.names, h.table⟩
    simp only [h2, Bool.false_eq_true, ↓reduceIte] at hlen ⊢
    by_cases h3 : p.st.text = []
    · simp only [h3, List.isEmpty_nil, Bool.not_true, Bool.false_eq_true, ↓reduceIte]
      exact ⟨h.filter, h.off, rfl, h.sub, h.user, h.names, h.table⟩
    · have hlt : p.lines.length < maxLines := by
        by_cases hlt : p.lines.length < maxLines
        · exact hlt
        · simp only [hlt] at hlen
          simp [h3, maxLines] at hlen hlt; omega
      have hlt' : q.lines.length < maxLines := by omega
      have h3' : p.st.text.isEmpty = false := by simpa using h3
      simp only [h3', hlt, hlt', Bool.not_false, ↓reduceIte]
      constructor
      · simp [h.filter]
      · simp [h.off]
      · simp
      · simp; exact h.sub
      · simp [h.user]
      · simp; exact h.names
      · simp [labelTable_append, labelTable, OState.finishLine, ← h.table, hm.notLabel]

theorem sim_parse (L : Locale) (f : Filter) (hf : f.libraryFunctions = false) (s : Str)
    (h : (objParse L f s).lines.length ≤ 5000) :
    Sim (objParse L f s) (objParse L { f with libraryFunctions := true } s) := by
  induction s using snoc_induct with
  | nil =>
    constructor <;> simp [objParse_eq, start, hf, labelTable]
  | snoc s c ih =>
    have hpre : (objParse L f s).lines.length ≤ (objParse L f (s ++ [c])).lines.length := by
      rw [objParse_append]
      exact (fold_prefix L [c] _ (by rw [parse_filter]; exact hf)).1.length_le
    have ih := ih (by omega)
    have hm := Modes.parse L f s
    have hg := Good.parse L f s
    rw [objParse_append] at h ⊢
    rw [objParse_append]
    simp only [List.foldl_cons, List.foldl_nil] at h ⊢
    have hs : (objParse L f s).st.stopParsing = false := by
      by_cases hs : (objParse L f s).st.stopParsing = true
      · have := (hg.marker hs).1
        have := hpre
        rw [objParse_append] at this
        simp only [List.foldl_cons, List.foldl_nil] at this
        omega
      · simpa using hs
    generalize objParse L f s = p at *
    generalize objParse L { f with libraryFunctions := true } s = q at *
    unfold OParser.feed at h ⊢
    simp only [ih.st, hs] at h ⊢
    by_cases h1 : c = 13
    · simp [h1]; exact ih
    by_cases h2 : c = 10
    · simp [h2] at h ⊢
      exact eol_sim hm ih h
    simp only [beq_iff_eq, h1, h2]
    by_cases h3 : p.st.skipRestOfTheLine = true
    · simp [h3]; exact ih
    simp only [h3, Bool.false_eq_true, ↓reduceIte]
    refine ⟨ih.filter, ih.off, ?_, ih.sub, ih.user, ih.names, ih.table⟩
    simp only [ih.filter]
    rw [step_congr]

end AsmParser
