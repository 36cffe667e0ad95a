/-
Helper lemmas: exactly which lines are read with the filters `comment_only` and `directives`.
-/
import Verif.Proofs.TextComment

namespace AsmParser

attribute [local irreducible] Re.search Re.fullMatch

theorem occurs_iff (w s : Str) : occurs w s = true ↔ Contains s w := by
  induction s with
  | nil =>
    unfold occurs
    rw [List.isEmpty_iff]
    constructor
    · rintro rfl; exact ⟨[], [], rfl⟩
    · rintro ⟨a, b, e⟩
      have := congrArg List.length e
      simp only [List.length_nil, List.length_append] at this
      exact List.length_eq_zero_iff.1 (by omega)
  | cons c s ih =>
    unfold occurs
    rw [Bool.or_eq_true, ih, List.isPrefixOf_iff_prefix]
    constructor
    · rintro (⟨r, e⟩ | ⟨a, b, rfl⟩)
      · exact ⟨[], r, e.symm⟩
      · exact ⟨c :: a, b, rfl⟩
    · rintro ⟨a, b, e⟩
      cases a with
      | nil => exact .inl ⟨b, e.symm⟩
      | cons d a =>
        rw [List.cons_append, List.cons_append, List.cons.injEq] at e
        exact .inr ⟨a, b, e.2⟩

theorem endCommentBlock_occurs (line : Str) : endCommentBlock line = occurs b! "*/" line := by
  rw [Bool.eq_iff_iff, endCommentBlock_iff, occurs_iff]

theorem startCommentBlock_opens (line : Str) : startCommentBlock line = opensComment line := by
  rw [Bool.eq_iff_iff, startCommentBlock_iff]
  unfold opensComment
  rw [List.isPrefixOf_iff_prefix]
  constructor
  · rintro ⟨bs, r, hb, rfl⟩
    refine ⟨r, ?_⟩
    rw [List.append_assoc, List.dropWhile_append_of_pos (by
      intro c hc
      have h : c = 32 ∨ c = 9 := hb c hc
      simpa using h)]
    rfl
  · rintro ⟨r, e⟩
    refine ⟨line.takeWhile fun c => c = 32 || c = 9, r, ?_, ?_⟩
    · intro c hc
      have h := mem_takeWhile hc
      have h : c = 32 ∨ c = 9 := by simpa using h
      exact h
    · rw [List.append_assoc, e]
      exact (List.takeWhile_append_dropWhile).symm

/-- Inside a block comment after the lines. -/
def insideAfter : Bool → List Str → Bool
  | b, [] => b
  | b, l :: ls => insideAfter (if b || opensComment l then !occurs b! "*/" l else false) ls

theorem insideAfter_append (b : Bool) (ls : List Str) (l : Str) : insideAfter b (ls ++ [l]) =
    if insideAfter b ls || opensComment l then !occurs b! "*/" l else false := by
  induction ls generalizing b with
  | nil => rfl
  | cons a ls ih => exact ih _

theorem outsideComments_append (b : Bool) (ls : List Str) (l : Str) : outsideComments b (ls ++ [l]) =
    outsideComments b ls ++ if insideAfter b ls || opensComment l then [] else [l] := by
  induction ls generalizing b with
  | nil =>
    rw [List.nil_append]
    unfold outsideComments insideAfter
    split <;> rfl
  | cons a ls ih =>
    rw [List.cons_append]
    unfold outsideComments insideAfter
    split
    · rw [ih]
    · rw [ih]; rfl

/-- The lines outside block comments if comments are filtered. -/
def uncommented (f : Filter) (ls : List Str) : List Str := if f.commentOnly then outsideComments false ls else ls

/-- What is expected of the input lines. -/
structure OrdinaryLine (f : Filter) (line : Str) : Prop extends PlainLine line where
  cuda : ¬ Contains (ink line) b! ".entry" ∧ ¬ Contains (ink line) b! ".func"
  proc : f.directives = true → Contains (cleaned f line) b! ".cfi_startproc" → PlainDirective (cleaned f line)

structure VisLines (f : Filter) (keep : Str → Bool) (done : List Str) (p : TParser) : Prop where
  text : p.st.text = []
  asm : p.st.inCustomAssembly ≤ 0
  cuda : p.st.inNvccDef = false ∧ p.st.inNvccCode = false
  texts : ∀ ln ∈ p.lines, ln.text = [] ∨ ∃ l, OrdinaryLine f l ∧ ln.text = cleaned f l
  inside : p.st.hasStartedCommentBlock = (f.commentOnly && insideAfter false done)
  lines : p.lines.map TLine.text = collapse (((uncommented f done).filter keep).map (cleaned f))

theorem ordinary_noCuda {f : Filter} {l : Str} (h : OrdinaryLine f l) (k : Str) : ¬ CudaHeader (cleaned f l) k := by
  rintro ⟨a, bs, ret, c, t, h1, -, -, -, -, -, h2⟩
  have hc : Contains (cleaned f l) (b! "." ++ k) := ⟨a, bs ++ ret ++ (c :: t) ++ b! "(", by rw [h2]; simp⟩
  have hmem : k = b! "entry" ∨ k = b! "func" := by simpa using h1
  rcases hmem with rfl | rfl
  · have := contains_ink hc (by unfold Space; decide)
    rw [ink_cleaned] at this
    exact h.cuda.1 this
  · have := contains_ink hc (by unfold Space; decide)
    rw [ink_cleaned] at this
    exact h.cuda.2 this

theorem uncommented_append (f : Filter) (ls : List Str) (l : Str) : uncommented f (ls ++ [l]) =
    uncommented f ls ++ if f.commentOnly && (insideAfter false ls || opensComment l) then [] else [l] := by
  unfold uncommented
  cases f.commentOnly with
  | true => rw [if_pos rfl, if_pos rfl, outsideComments_append]; rfl
  | false => rfl

theorem eol_block (L : Locale) (p : TParser) (h : (p.filter.commentOnly && (p.st.hasStartedCommentBlock || startCommentBlock p.st.text)) = true) :
    (p.eol L).lines = p.lines := by
  unfold TParser.eol
  simp only
  rw [if_pos h]
  rfl

theorem eol_blank' (L : Locale) (p : TParser) (h1 : (p.filter.commentOnly && (p.st.hasStartedCommentBlock || startCommentBlock p.st.text)) = false)
    (h2 : isEmptyOrJustWhitespace p.st.text = true) : p.eol L = p.start.maybeAddBlank (p.nextId + 1) := by
  unfold TParser.eol
  simp only
  rw [if_neg (by rw [h1]; simp), if_pos h2]
  rfl

/-- A directive that is dropped. -/
theorem dropped_plain {f : Filter} {l : Str} (h : OrdinaryLine f l) {hd : Bool} (hh : hd = true → SourceDirective (cleaned f l))
    (h1 : hd = true ∨ isDirective (cleaned f l) = true) (h2 : isInstOpcode (cleaned f l) = false)
    (h3 : hd = true ∨ getLabelFromLine (cleaned f l) = none) (h4 : hd = true ∨ isDataDefn (cleaned f l) = false) :
    PlainDirective (cleaned f l) := by
  have h5 : ¬ Contains (cleaned f l) b! ".inst" := by rw [← isInstOpcode_iff, h2]; simp
  cases hd with
  | true =>
    have hs := hh rfl
    exact ⟨hs.directive, fun n hn => ordinary_noCuda h n (hs.not_label hn), hs.not_data, h5⟩
  | false =>
    simp only [Bool.false_eq_true, false_or] at h1 h3 h4
    refine ⟨(C29_directive _).1 h1, fun n => getLabelFromLine_none h3 n, ?_, h5⟩
    rw [← C29_data, h4]; simp

theorem visible_nil (f : Filter) : Visible f [] := by
  refine ⟨fun _ h => ?_, fun _ h => ?_⟩
  · obtain ⟨bs, u, -, e, hu⟩ := h
    have : u = [] := by
      have := congrArg List.length e
      simp at this
      exact List.length_eq_zero_iff.1 (by omega)
    subst this
    simp at hu
  · rw [cleaned_nil] at h
    obtain ⟨⟨bs, r, -, e⟩, -⟩ := h
    have := congrArg List.length e
    simp at this

theorem vis_step (L : Locale) (f : Filter) (hlib : f.libraryFunctions = false) (keep : Str → Bool) (hkeep : ∀ l, keep l = true ↔ Visible f l)
    (done : List Str) (p : TParser) (l : Str) (hf : p.filter = f) (hl : OrdinaryLine f l) (h : VisLines f keep done p)
    (hs : EolStep L (p.addText l) ((p.addText l).eol L)) : VisLines f keep (done ++ [l]) ((p.addText l).eol L) := by
  have ht : (p.addText l).st.text = l := by show p.st.text ++ l = l; rw [h.text]; rfl
  have hfl : (p.addText l).filter = f := hf
  have hcond : ((p.addText l).filter.commentOnly && ((p.addText l).st.hasStartedCommentBlock || startCommentBlock (p.addText l).st.text)) =
      (f.commentOnly && (insideAfter false done || opensComment l)) := by
    rw [hfl, ht, startCommentBlock_opens, show (p.addText l).st.hasStartedCommentBlock = p.st.hasStartedCommentBlock from rfl, h.inside]
    cases f.commentOnly <;> rfl
  have hnew : (p.addText l).newLine.text = cleaned f l := by
    show lineText _ _ _ = _
    rw [lineText_plain, ht, hfl]
    show nesting (p.addText l).st.inCustomAssembly (p.addText l).st.text ≤ 0
    rw [ht]
    exact nesting_le hl.asm h.asm
  have hblank : isEmptyOrJustWhitespace (p.addText l).st.text = true → l = [] := by
    intro hb; rw [ht] at hb; exact hl.blank (blanks_white.1 hb)
  have htexts : ∀ ln ∈ ((p.addText l).eol L).lines, ln.text = [] ∨ ∃ l, OrdinaryLine f l ∧ ln.text = cleaned f l := by
    have hP : ∀ ls, Amended p.lines ls → ∀ ln ∈ ls, ln.text = [] ∨ ∃ l, OrdinaryLine f l ∧ ln.text = cleaned f l := by
      intro ls am
      exact am.forall (P := fun ln => ln.text = [] ∨ ∃ l, OrdinaryLine f l ∧ ln.text = cleaned f l) (fun _ => Iff.rfl) h.texts
    rcases hs.lines with ⟨-, am, -, -⟩ | ⟨l', -, -, eq, -, -⟩ | ⟨ls, am, ln, eq, kept⟩
    · exact hP _ am
    · rw [eq]
      intro x hx
      rcases List.mem_append.1 hx with hx | hx
      · exact h.texts x hx
      · have : x = { id := (p.addText l).nextId + 1 } := by simpa using hx
        subst this
        exact .inl rfl
    · rw [eq]
      intro x hx
      rcases List.mem_append.1 hx with hx | hx
      · exact hP _ am x hx
      · have : x = ln := by simpa using hx
        subst this
        exact .inr ⟨l, hl, by rw [kept.text, hnew]⟩
  have hcuda : ((p.addText l).eol L).st.inNvccDef = false ∧ ((p.addText l).eol L).st.inNvccCode = false := by
    have : ¬ (((p.addText l).eol L).st.inNvccDef = true ∨ ((p.addText l).eol L).st.inNvccCode = true) := by
      intro hn
      rcases hs.cuda hn with hn | hn | ⟨ln, h1, k, a, h2⟩
      · exact absurd (h.cuda.1.symm.trans hn) (by simp)
      · exact absurd (h.cuda.2.symm.trans hn) (by simp)
      · have := getLabelFromLine_cuda h2
        rcases htexts ln h1 with e | ⟨x, hx, e⟩
        · rw [e] at this
          obtain ⟨a, bs, ret, c, t, h1, -, -, -, -, -, h2⟩ := this
          have := congrArg List.length h2
          simp at this
        · rw [e] at this
          exact ordinary_noCuda hx k this
    simpa [not_or] using this
  refine ⟨?_, ?_, hcuda, htexts, ?_, ?_⟩
  · cases hb : isEmptyOrJustWhitespace (p.addText l).st.text with
    | false => exact hs.text hb
    | true =>
      rcases hs.carry with e | e
      · exact e
      · rw [e, ht, hblank hb]
  · rcases hs.asm with e | e
    · rw [e]; exact h.asm
    · rw [e, ht]; exact nesting_le hl.asm h.asm
  · rw [hs.block, insideAfter_append]
    unfold TParser.blockAfter
    rw [hcond, ht, endCommentBlock_occurs, show (p.addText l).st.hasStartedCommentBlock = p.st.hasStartedCommentBlock from rfl, h.inside]
    cases f.commentOnly <;> cases insideAfter false done <;> cases opensComment l <;> rfl
  · rw [uncommented_append]
    cases hK : (f.commentOnly && (insideAfter false done || opensComment l)) with
    | true =>
      rw [eol_block L _ (hcond.trans hK), if_pos rfl, List.append_nil]
      exact h.lines
    | false =>
      have hK' := hcond.trans hK
      rw [if_neg (by simp), List.filter_append, List.map_append]
      have gone : keep l = false → Amended p.lines ((p.addText l).eol L).lines →
          ((p.addText l).eol L).lines.map TLine.text =
            collapse (((uncommented f done).filter keep).map (cleaned f) ++ (([l].filter keep).map (cleaned f))) := by
        intro hk am
        rw [List.filter_cons_of_neg (by rw [hk]; simp), List.filter_nil, List.map_nil, List.append_nil, ← amended_text am]
        exact h.lines
      have keptl : keep l = true → collapse (((uncommented f done).filter keep).map (cleaned f) ++ (([l].filter keep).map (cleaned f))) =
          p.lines.map TLine.text ++ if cleaned f l = [] ∧ (match (p.lines.map TLine.text).getLast? with
          | none => true | some x => decide (x = [])) = true then [] else [cleaned f l] := by
        intro hk
        rw [List.filter_cons_of_pos hk, List.filter_nil]
        show collapseFrom true (_ ++ [cleaned f l]) = _
        rw [collapseFrom_append, h.lines]
        rfl
      have notVisible : ¬ Visible f l → keep l = false := by
        intro hv
        rw [← hkeep] at hv
        simpa using hv
      have blankLine : l = [] → keep l = true := by
        rintro rfl
        exact (hkeep _).2 (visible_nil f)
      rcases hs.lines with ⟨hraw, am, -, why⟩ | ⟨l', last, ne, eq, -, raw⟩ | ⟨ls, am, ln, eq, kept⟩
      · cases why with
        | library h => rw [hfl, hlib] at h; exact absurd h (by simp)
        | comment h1 h2 =>
          rw [h1, Bool.true_and, Bool.or_eq_false_iff] at hK'
          rcases h2 with h2 | h2 | ⟨h2, -⟩ | ⟨-, h2⟩
          · exact absurd (hK'.1.symm.trans h2) (by simp)
          · exact absurd (hK'.2.symm.trans h2) (by simp)
          · refine gone (notVisible fun hv => ?_) am
            rw [hfl] at h1
            rw [ht] at h2
            exact hv.1 h1 ((C29_comment _).1 h2)
          · exact absurd (h.cuda.2.symm.trans h2) (by simp)
        | proc h1 h2 =>
          refine gone (notVisible fun hv => ?_) am
          rw [hfl] at h1
          unfold TParser.atProc at h2
          rw [Bool.and_eq_true, hnew, startProcBlock_iff] at h2
          exact hv.2 h1 (hl.proc h1 h2.1)
        | directive h1 h2 h3 h4 h5 =>
          refine gone (notVisible fun hv => ?_) am
          rw [hfl] at h1
          rw [hnew] at h2 h3 h4 h5
          refine hv.2 h1 (dropped_plain hl (hd := (p.addText l).handled) (fun hh => ?_) h2 h3 h4 h5)
          have := handled_form _ hh
          rwa [hnew] at this
        | blank hb =>
          have hl0 := hblank hb
          have heq := eol_blank' L _ hK' hb
          have hno : ((p.addText l).eol L).lines = (p.addText l).lines := hraw hb
          rw [keptl (blankLine hl0), hno]
          subst hl0
          rw [cleaned_nil, if_pos, List.append_nil]
          · rfl
          refine ⟨rfl, ?_⟩
          rw [List.getLast?_map]
          cases hg : (p.addText []).lines.getLast? with
          | none =>
            rw [show p.lines.getLast? = none from hg]; rfl
          | some x =>
            rw [show p.lines.getLast? = some x from hg]
            show decide (x.text = []) = true
            rw [decide_eq_true_eq]
            apply Classical.byContradiction
            intro hx
            rw [heq] at hno
            unfold TParser.maybeAddBlank at hno
            rw [show (p.addText []).start.lines = (p.addText []).lines from rfl, hg] at hno
            simp only at hno
            rw [if_neg (by simpa using hx)] at hno
            have := congrArg List.length hno
            simp at this
      · have hl0 := hblank raw
        rw [keptl (blankLine hl0)]
        subst hl0
        rw [eq, List.map_append, cleaned_nil, if_neg]
        · rfl
        · rw [List.getLast?_map, show p.lines.getLast? = some l' from last]
          simp [ne]
      · have hnb : ¬ Blanks l := by
          have := not_blanks_white.1 kept.raw
          rwa [ht] at this
        have hv : Visible f l := by
          refine ⟨fun hc ho => ?_, fun hd hp => ?_⟩
          · have := kept.comment (by rw [hfl]; exact hc) h.cuda.2
            rw [ht] at this
            have ho' := (C29_comment _).2 ho
            exact absurd (this.symm.trans ho') (by simp)
          · have htext : ln.text = cleaned f l := by rw [kept.text, hnew]
            rcases kept.directive (by rw [hfl]; exact hd) with h1 | h1 | h1 | h1 | ⟨-, h1, -⟩
            · rcases kept.label with ⟨-, -, ⟨c, a2, -⟩, -⟩ | ⟨a1, -⟩
              · have := getLabelFromLine_defines a2
                rw [htext] at this
                exact hp.2.1 _ this
              · exact absurd (a1.symm.trans h1) (by simp)
            · have := (C29_data _).1 (kept.data h1).1
              rw [htext] at this
              exact hp.2.2.1 this
            · rw [htext, isInstOpcode_iff] at h1
              exact hp.2.2.2 h1
            · exact absurd (h.cuda.1.symm.trans h1) (by simp)
            · rw [htext] at h1
              have := (C29_directive _).2 hp.1
              exact absurd (h1.symm.trans this) (by simp)
        rw [keptl ((hkeep _).2 hv), if_neg (fun h => cleaned_ne hnb h.1), eq, List.map_append, ← amended_text am]
        congr 1
        show [ln.text] = _
        rw [kept.text, hnew]

theorem visLines (L : Locale) (f : Filter) (hlib : f.libraryFunctions = false) (keep : Str → Bool) (hkeep : ∀ l, keep l = true ↔ Visible f l)
    (s : Str) (hs : ∀ l ∈ inputLines s, OrdinaryLine f l) :
    ((TParser.init f).readStream L s).lines.map TLine.text =
      collapse (((uncommented f (inputLines s)).filter keep).map (cleaned f)) := by
  obtain ⟨e, he, h, -, -⟩ := readStream_lines L f (fun done p => (∀ l ∈ done, OrdinaryLine f l) → VisLines f keep done p)
    (fun _ => ⟨rfl, Int.le_refl _, ⟨rfl, rfl⟩, fun ln hln => by simp [TParser.init] at hln, by cases f.commentOnly <;> rfl, by
      have : uncommented f [] = [] := by unfold uncommented; cases f.commentOnly <;> rfl
      rw [this]; rfl⟩)
    (fun done p l _ hf _ h hst hd => vis_step L f hlib keep hkeep done p l hf (hd l (by simp))
      (h fun x hx => hd x (List.mem_append_left _ hx)) hst) s
  rcases he with rfl | ⟨-, q, hq, h'⟩
  · rw [List.append_nil] at h
    exact (h hs).lines
  · exact absurd (h' hs).text hq

end AsmParser
