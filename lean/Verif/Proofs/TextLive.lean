/-
Helper lemmas: which lines the views of the text parser point into.
-/
import Verif.Proofs.TextOut
import Verif.Proofs.TextInv

namespace AsmParser

open Re Regexes

attribute [local irreducible] Re.search Re.fullMatch

/-- The line with this allocation number still exists. -/
def TParser.has (p : TParser) (i : Nat) : Prop := ∃ l, (l ∈ p.lines ∨ l ∈ p.st.filteredLines) ∧ l.id = i

theorem live_iff (p : TParser) (cur i : Nat) : p.live cur (some i) = true ↔ i = cur ∨ p.has i := by
  unfold TParser.live TParser.has
  simp only [Bool.or_eq_true, beq_iff_eq, List.any_eq_true, or_assoc]
  constructor
  · rintro (h | ⟨l, h1, h2⟩ | ⟨l, h1, h2⟩)
    · exact .inl h
    · exact .inr ⟨l, .inl h1, h2⟩
    · exact .inr ⟨l, .inr h1, h2⟩
  · rintro (h | ⟨l, h1 | h1, h2⟩)
    · exact .inl h
    · exact .inr (.inl ⟨l, h1, h2⟩)
    · exact .inr (.inr ⟨l, h1, h2⟩)

theorem live_of (p : TParser) (cur : Nat) {o : Option Nat} (h : ∀ i, o = some i → i = cur ∨ p.has i) : p.live cur o = true := by
  cases o with
  | none => rfl
  | some i => exact (live_iff p cur i).2 (h i rfl)

/-- All views, except section names, point into lines in `S`. -/
structure Owned (S : Nat → Prop) (p : TParser) : Prop where
  stored : ∀ i, some i ∈ p.stored → S i
  prev : ∀ i, p.st.previousLabel.own = some i → S i
  parent : ∀ i, p.st.previousParentLabel.own = some i → S i
  addr : ∀ i, p.st.previousLabelOnSameAddress.own = some i → S i
  file : ∀ i, p.st.currentSourceFile.own = some i → S i
  ref : ∀ i, p.st.currentSourceRef.file.own = some i → S i
  lines : ∀ l ∈ p.lines, ∀ i, l.source.file.own = some i → S i

/-- The section names point into lines in `S`. -/
structure SecOwned (S : Nat → Prop) (p : TParser) : Prop where
  cur : ∀ i, p.st.currentSection.own = some i → S i
  lines : ∀ l ∈ p.lines, ∀ i, l.sect.own = some i → S i

theorem Owned.mono {S S' : Nat → Prop} {p : TParser} (h : Owned S p) (hs : ∀ i, S i → S' i) : Owned S' p :=
  ⟨fun i hi => hs i (h.stored i hi), fun i hi => hs i (h.prev i hi), fun i hi => hs i (h.parent i hi), fun i hi => hs i (h.addr i hi),
    fun i hi => hs i (h.file i hi), fun i hi => hs i (h.ref i hi), fun l hl i hi => hs i (h.lines l hl i hi)⟩

theorem SecOwned.mono {S S' : Nat → Prop} {p : TParser} (h : SecOwned S p) (hs : ∀ i, S i → S' i) : SecOwned S' p :=
  ⟨fun i hi => hs i (h.cur i hi), fun l hl i hi => hs i (h.lines l hl i hi)⟩

theorem Amended.sect {a b : List TLine} (h : Amended a b) {S : Nat → Prop} (ha : ∀ l ∈ a, ∀ i, l.sect.own = some i → S i) :
    ∀ l ∈ b, ∀ i, l.sect.own = some i → S i :=
  h.forall (P := fun l => ∀ i, l.sect.own = some i → S i) (fun _ => Iff.rfl) ha

theorem Amended.ids {a b : List TLine} (h : Amended a b) (i : Nat) : (∃ l ∈ a, l.id = i) ↔ ∃ l ∈ b, l.id = i := by
  have : a.map TLine.id = b.map TLine.id := h.map _ fun _ => rfl
  have e : ∀ x : List TLine, (∃ l ∈ x, l.id = i) ↔ i ∈ x.map TLine.id := by intro x; simp
  rw [e, e, this]

theorem has_of {p q : TParser} (am : Amended p.lines q.lines) (hf : q.st.filteredLines = p.st.filteredLines) (i : Nat) :
    q.has i ↔ p.has i := by
  have e : ∀ x : TParser, x.has i ↔ (∃ l ∈ x.lines, l.id = i) ∨ ∃ l ∈ x.st.filteredLines, l.id = i := by
    intro x
    unfold TParser.has
    constructor
    · rintro ⟨l, h1 | h1, h2⟩
      · exact .inl ⟨l, h1, h2⟩
      · exact .inr ⟨l, h1, h2⟩
    · rintro (⟨l, h1, h2⟩ | ⟨l, h1, h2⟩)
      · exact ⟨l, .inl h1, h2⟩
      · exact ⟨l, .inr h1, h2⟩
  rw [e, e, hf, am.ids]

theorem amendRev_file {src : TSource} {ls : List TLine} {S : Nat → Prop} (h : ∀ l ∈ ls, ∀ i, l.source.file.own = some i → S i)
    (hs : ∀ i, src.file.own = some i → S i) : ∀ l ∈ amendRev src ls, ∀ i, l.source.file.own = some i → S i := by
  induction ls with
  | nil => exact h
  | cons l ls ih =>
    rw [List.forall_mem_cons] at h
    unfold amendRev
    split
    · split
      · rw [List.forall_mem_cons]
        exact ⟨hs, ih h.2⟩
      · rw [List.forall_mem_cons]
        exact ⟨hs, h.2⟩
    · rw [List.forall_mem_cons]
      exact h

theorem amend_file {src : TSource} {ls : List TLine} {S : Nat → Prop} (h : ∀ l ∈ ls, ∀ i, l.source.file.own = some i → S i)
    (hs : ∀ i, src.file.own = some i → S i) : ∀ l ∈ (amendRev src ls.reverse).reverse, ∀ i, l.source.file.own = some i → S i := by
  intro l hl
  rw [List.mem_reverse] at hl
  exact amendRev_file (fun l hl => h l (List.mem_reverse.1 hl)) hs l hl

theorem mark_file {p : TParser} {S : Nat → Prop} (h : ∀ l ∈ p.lines, ∀ i, l.source.file.own = some i → S i) :
    ∀ l ∈ p.markPreviousInternalLabelAsInsideProc.lines, ∀ i, l.source.file.own = some i → S i := by
  unfold TParser.markPreviousInternalLabelAsInsideProc
  simp only
  split
  · intro l hl; exact absurd hl (by simp)
  · rename_i l0 ls e
    have h' : ∀ l ∈ l0 :: ls, ∀ i, l.source.file.own = some i → S i := by
      intro l hl
      rw [← e, List.mem_reverse] at hl
      exact h l hl
    rw [List.forall_mem_cons] at h'
    intro l hl
    rw [List.mem_reverse] at hl
    rcases List.mem_cons.1 hl with rfl | hl
    · split
      · exact h'.1
      · exact h'.1
    · exact h'.2 l hl

theorem owned_none {S : Nat → Prop} : ∀ i, (none : Option Nat) = some i → S i := fun _ h => absurd h (by simp)

theorem owned_nested {S : Nat → Prop} {p : TParser} (h : Owned S p) : Owned S p.nested :=
  ⟨h.stored, h.prev, h.parent, h.addr, h.file, h.ref, h.lines⟩

theorem owned_pre {S : Nat → Prop} {p : TParser} (h : Owned S p) : Owned S p.pre := by
  unfold TParser.pre
  split
  · have h := owned_nested h
    exact ⟨h.stored, h.prev, h.parent, h.addr, h.file, h.ref, mark_file h.lines⟩
  · exact owned_nested h

theorem owned_sources {S : Nat → Prop} {p : TParser} {ln : TLine} (h : Owned S p) (hid : S ln.id) :
    Owned S (p.handleSourceDirectives ln).1 := by
  unfold TParser.handleSourceDirectives
  split
  · exact ⟨h.stored, owned_none, h.parent, h.addr, h.file, owned_none, h.lines⟩
  · split
    · rename_i q hq
      unfold TParser.handleFiledef at hq
      rw [Option.map_eq_some_iff] at hq
      obtain ⟨d, -, rfl⟩ := hq
      exact ⟨h.stored, h.prev, h.parent, h.addr, h.file, h.ref, h.lines⟩
    · split
      · rename_i q hq
        unfold TParser.handleSource at hq
        generalize getSourceRef ln.text = r at hq
        simp only at hq
        split at hq
        · simp only [Option.some.injEq] at hq
          subst hq
          exact ⟨h.stored, h.prev, h.parent, h.addr, h.file, h.ref, amend_file h.lines h.ref⟩
        · exact absurd hq (by simp)
      · split
        · rename_i q hq
          unfold TParser.handleStabs at hq
          rw [Option.map_eq_some_iff] at hq
          obtain ⟨d, -, rfl⟩ := hq
          split
          · exact ⟨h.stored, h.prev, h.parent, h.addr, h.file, owned_none, h.lines⟩
          · split
            · exact ⟨h.stored, owned_none, h.parent, h.addr, h.file, owned_none, h.lines⟩
            · exact h
        · split
          · rename_i q hq
            unfold TParser.handle6502 at hq
            rw [Option.map_eq_some_iff] at hq
            obtain ⟨d, -, rfl⟩ := hq
            split
            · exact ⟨h.stored, h.prev, h.parent, h.addr, h.file, by rintro i ⟨⟩; exact hid, h.lines⟩
            · exact h
          · split
            · rename_i q hq
              unfold TParser.handleD2 at hq
              split at hq
              · simp only [Option.some.injEq] at hq
                subst hq
                exact ⟨h.stored, h.prev, h.parent, h.addr, h.file, h.file, amend_file h.lines h.file⟩
              · rw [Option.map_eq_some_iff] at hq
                obtain ⟨d, -, rfl⟩ := hq
                exact ⟨h.stored, h.prev, h.parent, h.addr, by rintro i ⟨⟩; exact hid, h.ref, h.lines⟩
            · exact h

/-- A line that is not a source directive adds no view of a file name. -/
theorem owned_sources_not {S : Nat → Prop} {p : TParser} {ln : TLine} (h : Owned S p) (hh : (p.handleSourceDirectives ln).2 = false) :
    Owned S (p.handleSourceDirectives ln).1 := by
  unfold TParser.handleSourceDirectives at hh ⊢
  split at hh
  · rw [if_pos ‹_›]
    exact ⟨h.stored, owned_none, h.parent, h.addr, h.file, owned_none, h.lines⟩
  · rw [if_neg ‹_›]
    split at hh
    · exact absurd hh (by simp)
    · split at hh
      · exact absurd hh (by simp)
      · split at hh
        · exact absurd hh (by simp)
        · split at hh
          · exact absurd hh (by simp)
          · split at hh
            · exact absurd hh (by simp)
            · exact h

theorem ub_sources {p : TParser} {ln : TLine} (h : Owned (fun i => i = ln.id ∨ p.has i) p) (hu : p.ub = false) :
    (p.handleSourceDirectives ln).1.ub = false := by
  unfold TParser.handleSourceDirectives
  split
  · exact hu
  · split
    · rename_i q hq
      unfold TParser.handleFiledef at hq
      rw [Option.map_eq_some_iff] at hq
      obtain ⟨d, -, rfl⟩ := hq
      exact hu
    · split
      · rename_i q hq
        unfold TParser.handleSource at hq
        generalize getSourceRef ln.text = r at hq
        simp only at hq
        split at hq
        · simp only [Option.some.injEq] at hq
          subst hq
          exact hu
        · exact absurd hq (by simp)
      · split
        · rename_i q hq
          unfold TParser.handleStabs at hq
          rw [Option.map_eq_some_iff] at hq
          obtain ⟨d, -, rfl⟩ := hq
          split
          · exact hu
          · split
            · exact hu
            · exact hu
        · split
          · rename_i q hq
            unfold TParser.handle6502 at hq
            rw [Option.map_eq_some_iff] at hq
            obtain ⟨d, -, rfl⟩ := hq
            split
            · exact hu
            · exact hu
          · split
            · rename_i q hq
              unfold TParser.handleD2 at hq
              split at hq
              · simp only [Option.some.injEq] at hq
                subst hq
                show (p.ub || !p.live ln.id p.st.currentSourceFile.own) = false
                rw [hu, live_of p ln.id h.file]
                rfl
              · rw [Option.map_eq_some_iff] at hq
                obtain ⟨d, -, rfl⟩ := hq
                exact hu
            · exact hu

theorem section_own {S : Nat → Prop} {p : TParser} (n : Nat) (t : Str) (h : Owned S p) : Owned S (p.handleSection n t) := by
  unfold TParser.handleSection
  split
  · exact ⟨h.stored, h.prev, h.parent, h.addr, h.file, h.ref, h.lines⟩
  · exact h

theorem section_ub {p : TParser} (n : Nat) (t : Str) : (p.handleSection n t).ub = p.ub := by
  unfold TParser.handleSection
  split <;> rfl

theorem sec_ub {p : TParser} (h : Owned p.has p) (hu : p.ub = false) : p.sec.ub = false := by
  have e : (p.pre.handleSourceDirectives p.newLine).1.ub = false := by
    apply ub_sources
    · refine (owned_pre h).mono fun i hi => .inr ?_
      obtain ⟨⟨_, _, _, _, _, _, _, _, e⟩, am, -⟩ := frame_pre p
      exact (has_of (p := p) (q := p.pre) am (by rw [e]; rfl) i).2 hi
    · unfold TParser.pre
      split <;> exact hu
  unfold TParser.sec
  split
  · rw [section_ub]; exact e
  · exact e

theorem sec_owned {S : Nat → Prop} {p : TParser} (h : Owned S p) (hid : p.handled = true → S p.nextId) : Owned S p.sec := by
  unfold TParser.sec
  cases hh : p.handled with
  | false =>
    rw [if_pos (by simp)]
    exact section_own _ _ (owned_sources_not (owned_pre h) hh)
  | true =>
    rw [if_neg (by simp)]
    exact owned_sources (owned_pre h) (hid hh)

theorem sec_sect {S : Nat → Prop} {p : TParser} (h : SecOwned S p) (hid : S p.nextId) : SecOwned S p.sec := by
  refine ⟨?_, (frame_sec p).lines.sect h.lines⟩
  have e : (p.pre.handleSourceDirectives p.newLine).1.st.currentSection = p.st.currentSection := by
    have : p.pre.st.currentSection = p.st.currentSection := by
      unfold TParser.pre; split <;> rfl
    rw [← this]
    generalize p.pre = q
    unfold TParser.handleSourceDirectives
    split
    · rfl
    · split
      · rename_i q hq
        unfold TParser.handleFiledef at hq
        rw [Option.map_eq_some_iff] at hq
        obtain ⟨d, -, rfl⟩ := hq
        rfl
      · split
        · rename_i q hq
          unfold TParser.handleSource at hq
          generalize getSourceRef p.newLine.text = r at hq
          simp only at hq
          split at hq
          · simp only [Option.some.injEq] at hq
            subst hq
            rfl
          · exact absurd hq (by simp)
        · split
          · rename_i q hq
            unfold TParser.handleStabs at hq
            rw [Option.map_eq_some_iff] at hq
            obtain ⟨d, -, rfl⟩ := hq
            split
            · rfl
            · split <;> rfl
          · split
            · rename_i q hq
              unfold TParser.handle6502 at hq
              rw [Option.map_eq_some_iff] at hq
              obtain ⟨d, -, rfl⟩ := hq
              split <;> rfl
            · split
              · rename_i q hq
                unfold TParser.handleD2 at hq
                split at hq
                · simp only [Option.some.injEq] at hq
                  subst hq
                  rfl
                · rw [Option.map_eq_some_iff] at hq
                  obtain ⟨d, -, rfl⟩ := hq
                  rfl
              · rfl
  unfold TParser.sec
  split
  · unfold TParser.handleSection
    split
    · rintro i ⟨⟩
      exact hid
    · rw [e]; exact h.cur
  · rw [e]; exact h.cur

theorem lab_owned {S : Nat → Prop} {p : TParser} (h : Owned S p) (hid : S p.nextId) : Owned S p.lab.1 := by
  have h1 : Owned S p.sec' := by
    have h := sec_owned h fun _ => hid
    exact ⟨h.stored, h.prev, h.parent, h.addr, h.file, h.ref, h.lines⟩
  unfold TParser.lab
  split
  · exact h1
  · unfold TParser.handleLabelDefinition
    split
    · refine ⟨?_, by rintro i ⟨⟩; exact hid, ?_, h1.addr, h1.file, h1.ref, h1.lines⟩
      · intro i hi
        rcases List.mem_cons.1 hi with hi | hi
        · cases hi; exact hid
        · exact h1.stored i hi
      · simp only
        split
        · rintro i ⟨⟩; exact hid
        · exact h1.parent
    · exact h1

theorem lab_sect {S : Nat → Prop} {p : TParser} (h : SecOwned S p) (hid : S p.nextId) : SecOwned S p.lab.1 := by
  have h1 : SecOwned S p.sec' := by
    have h := sec_sect h hid
    exact ⟨h.cur, h.lines⟩
  unfold TParser.lab
  split
  · exact h1
  · unfold TParser.handleLabelDefinition
    split
    · exact ⟨h1.cur, h1.lines⟩
    · exact h1

theorem dir_owned {S : Nat → Prop} {p : TParser} (h : Owned S p) {n : Nat} (hid : S n) (t : Str) :
    Owned S (p.extractUsedLabelsFromDirective n t) := by
  have aux : ∀ i, some i ∈ some n :: p.st.previousLabel.own :: p.stored → S i := by
    intro i hi
    simp only [List.mem_cons] at hi
    rcases hi with hi | hi | hi
    · cases hi; exact hid
    · exact h.prev i hi.symm
    · exact h.stored i hi
  unfold TParser.extractUsedLabelsFromDirective
  split
  · exact ⟨aux, h.prev, h.parent, h.addr, h.file, h.ref, h.lines⟩
  · split
    · exact ⟨aux, h.prev, h.parent, h.addr, h.file, h.ref, h.lines⟩
    · exact h

theorem collect_owned {S : Nat → Prop} {L : Locale} {q : TParser} {ln : TLine} (h : Owned S q) (hid : S ln.id) :
    Owned S (collect L q ln).1 := by
  have s1 : ∀ q : TParser, Owned S q → ∀ ln : TLine, S ln.id → Owned S (q.extractUsedLabelsFromOpcodeLine L ln).1 := by
    intro q h ln hid
    refine ⟨?_, h.prev, h.parent, h.addr, h.file, h.ref, h.lines⟩
    unfold TParser.extractUsedLabelsFromOpcodeLine
    simp only
    split
    · exact h.stored
    · intro i hi
      simp only [List.mem_cons] at hi
      rcases hi with hi | hi | hi
      · cases hi; exact hid
      · exact h.parent i hi.symm
      · exact h.stored i hi
  have s2 : ∀ q : TParser, Owned S q → ∀ ln : TLine, S ln.id → Owned S (q.extractUsedLabelsFromDataLine L ln).1 := by
    intro q h ln hid
    refine ⟨?_, h.prev, h.parent, h.addr, h.file, h.ref, h.lines⟩
    unfold TParser.extractUsedLabelsFromDataLine
    simp only
    split
    · exact h.stored
    · intro i hi
      simp only [List.mem_cons] at hi
      rcases hi with hi | hi | hi | hi
      · cases hi; exact hid
      · exact h.prev i hi.symm
      · exact h.parent i hi.symm
      · exact h.stored i hi
  have : Owned S (if !ln.isLabel && ln.hasOpcode then q.extractUsedLabelsFromOpcodeLine L ln else (q, ln)).1 ∧
      S (if !ln.isLabel && ln.hasOpcode then q.extractUsedLabelsFromOpcodeLine L ln else (q, ln)).2.id := by
    split
    · exact ⟨s1 _ h _ hid, hid⟩
    · exact ⟨h, hid⟩
  unfold collect
  simp only
  generalize (if !ln.isLabel && ln.hasOpcode then q.extractUsedLabelsFromOpcodeLine L ln else (q, ln)) = r at this
  split
  · exact s2 _ this.1 _ this.2
  · exact this.1

theorem alias_owned {S : Nat → Prop} {p : TParser} {ln : TLine} (h : Owned S p) (hid : S ln.id) : Owned S (p.handleLabelAliasing ln) := by
  have key : ∀ q : TParser, Owned S q → Owned S (if ln.isLabel && !ln.isAssignment then
      { q with st := { q.st with previousLabelOnSameAddress := ⟨ln.label, some ln.id⟩ } } else q) := by
    intro q h
    split
    · exact ⟨h.stored, h.prev, h.parent, by rintro i ⟨⟩; exact hid, h.file, h.ref, h.lines⟩
    · exact h
  unfold TParser.handleLabelAliasing
  apply key
  split
  · split
    · split
      · refine ⟨?_, h.prev, h.parent, h.addr, h.file, h.ref, h.lines⟩
        intro i hi
        simp only [List.mem_cons] at hi
        rcases hi with hi | hi | hi
        · cases hi; exact hid
        · exact h.addr i hi.symm
        · exact h.stored i hi
      · split
        · exact ⟨h.stored, h.prev, h.parent, owned_none, h.file, h.ref, h.lines⟩
        · exact h
    · exact ⟨h.stored, h.prev, h.parent, owned_none, h.file, h.ref, h.lines⟩
  · exact h


theorem finish_owned {S : Nat → Prop} {L : Locale} {q : TParser} {ln : TLine} (h : Owned S q) (hid : S ln.id) :
    Owned S (q.eolFinish L ln) := by
  have e : q.eolFinish L ln =
    (let r := collect L q { ln with isInlineAsm := decide (q.st.inCustomAssembly > 0),
                                    hasOpcode := hasOpcode ln.text q.st.inNvccCode, labels := [] }
     let p := r.1
     let ln := { r.2 with
        closestParentLabel :=
          if r.2.isAssignment || r.2.label == p.st.previousParentLabel.s then [] else p.st.previousParentLabel.s
        source := p.st.currentSourceRef
        sect := p.st.currentSection }
     let p := p.handleLabelAliasing ln
     { p with lines := p.lines ++ [ln], stored := p.st.previousParentLabel.own :: p.stored }.clear) := rfl
  have h1 : Owned S (collect L q { ln with isInlineAsm := decide (q.st.inCustomAssembly > 0),
                                           hasOpcode := hasOpcode ln.text q.st.inNvccCode, labels := [] }).1 := collect_owned h hid
  have h2 := collect_line L q { ln with isInlineAsm := decide (q.st.inCustomAssembly > 0),
                                        hasOpcode := hasOpcode ln.text q.st.inNvccCode, labels := [] } rfl
  rw [e]
  generalize collect L q { ln with isInlineAsm := decide (q.st.inCustomAssembly > 0),
                                   hasOpcode := hasOpcode ln.text q.st.inNvccCode, labels := [] } = r at h1 h2 ⊢
  have hid2 : S r.2.id := by rw [h2]; exact hid
  clear e h2
  obtain ⟨q, ln2⟩ := r
  simp only at h1 hid2 ⊢
  have h3 := alias_owned (ln := { ln2 with
      closestParentLabel :=
        if ln2.isAssignment || ln2.label == q.st.previousParentLabel.s then [] else q.st.previousParentLabel.s
      source := q.st.currentSourceRef
      sect := q.st.currentSection }) h1 hid2
  have h4 := h1.ref
  refine ⟨?_, h3.prev, h3.parent, h3.addr, h3.file, h3.ref, ?_⟩
  · intro i hi
    rcases List.mem_cons.1 hi with hi | hi
    · exact h3.parent i hi.symm
    · exact h3.stored i hi
  · intro l hl
    rcases List.mem_append.1 hl with hl | hl
    · exact h3.lines l hl
    · rw [List.mem_singleton.1 hl]
      exact h4

theorem justNvccComments_head {line : Str} (h : isJustNvccComments line = true) :
    ∃ bs c r, Blanks bs ∧ line = bs ++ c :: r ∧ (c = c! '#' ∨ c = c! ';' ∨ c = c! '/') := by
  unfold isJustNvccComments at h
  rw [fullMatch_isSome] at h
  change ∃ cs, Lang (.seq (.seq (.seq .bol hs) (.grp 1 _)) .eol) 0 line [] cs at h
  simp only [lang_seq, lang_bol, lang_eol, lang_chr, lang_hs, lang_many_any, lang_grp, lang_alt, app_eq_seq, lang_lit] at h
  obtain ⟨cs, w1, w2, c1, c2, rfl, ⟨w3, w4, c3, c4, rfl, ⟨w5, w6, c5, c6, rfl, ⟨rfl, -, rfl⟩, ⟨hb, rfl⟩, rfl⟩, ⟨c7, h, rfl⟩, rfl⟩, ⟨rfl, -, rfl⟩, rfl⟩ := h
  have hb : Blanks w6 := fun c hc => isH_iff.1 (hb c hc)
  rcases h with ⟨_, ⟨_, r, _, _, rfl, ⟨_, h, rfl⟩, rfl, rfl⟩, rfl⟩ | ⟨_, ⟨_, _, _, _, rfl, ⟨_, _, _, _, rfl, ⟨rfl, rfl⟩, rfl, rfl⟩, ⟨rfl, rfl⟩, rfl⟩, rfl⟩
  · rcases h with ⟨rfl, rfl⟩ | ⟨rfl, rfl⟩ | ⟨rfl, rfl⟩
    · exact ⟨w6, _, r, hb, by simp, .inl rfl⟩
    · exact ⟨w6, _, r, hb, by simp, .inr (.inl rfl)⟩
    · exact ⟨w6, c! '/', c! '/' :: r, hb, by simp, .inr (.inr rfl)⟩
  · exact ⟨w6, c! '/', _, hb, by simp; rfl, .inr (.inr rfl)⟩

theorem justComments_head {line : Str} (h : isJustComments line = true) :
    ∃ bs c r, Blanks bs ∧ line = bs ++ c :: r ∧ (c = c! '#' ∨ c = c! ';' ∨ c = c! '/' ∨ c = c! '@') := by
  replace h := (isJustComments_iff line).1 h
  obtain ⟨bs, t, hb, rfl, h⟩ := h
  rcases h with ⟨x, rfl⟩ | ⟨x, rfl⟩ | ⟨x, rfl⟩ | ⟨x, rfl⟩ | ⟨r, rfl, -⟩
  · exact ⟨bs, _, x, hb, rfl, .inl rfl⟩
  · exact ⟨bs, _, x, hb, rfl, .inr (.inr (.inr rfl))⟩
  · exact ⟨bs, _, c! '/' :: x, hb, rfl, .inr (.inr (.inl rfl))⟩
  · exact ⟨bs, _, c! '*' :: x ++ b! "*/", hb, by simp, .inr (.inr (.inl rfl))⟩
  · exact ⟨bs, _, r, hb, rfl, .inr (.inl rfl)⟩

theorem ink_cons {c : Byte} (r : Str) (h : ¬ Space c) : ink (c :: r) = c :: ink r := by
  unfold ink
  rw [List.filter_cons, if_pos]
  exact decide_eq_true h

/-- A line that is only a comment is not a source directive. -/
theorem comment_not_handled (p : TParser) (h : (isJustComments p.st.text = true ∧ p.st.inNvccCode = false) ∨
        (isJustNvccComments p.st.text = true ∧ p.st.inNvccCode = true)) : p.handled = false := by
  rw [Bool.eq_false_iff]
  intro hh
  obtain ⟨bs, kw, bs', c, r, h1, h2, -, -, -, -, h3⟩ := handled_form p hh
  obtain ⟨sp, t', k1, k2, -, k3, -⟩ := lineText_shown p.filter p.nested.st.inCustomAssembly p.st.text
  have e1 : ink p.newLine.text = ink p.st.text := by
    show ink (lineText _ _ _) = _
    rw [k3, k1, ink_cleaned, ink_append, ink_spaces k2]; rfl
  have e2 : (ink p.newLine.text).head? = some c! '.' := by
    rw [h3, ink_append, ink_append, ink_append, ink_blanks h1]
    simp only [List.mem_cons, List.not_mem_nil, or_false] at h2
    rcases h2 with rfl | rfl | rfl | rfl | rfl | rfl <;> rfl
  have : ∃ bs c r, Blanks bs ∧ p.st.text = bs ++ c :: r ∧ (c = c! '#' ∨ c = c! ';' ∨ c = c! '/' ∨ c = c! '@') := by
    rcases h with h | h
    · exact justComments_head h.1
    · obtain ⟨bs, c, r, g1, g2, g3⟩ := justNvccComments_head h.1
      exact ⟨bs, c, r, g1, g2, by rcases g3 with h | h | h <;> simp [h]⟩
  obtain ⟨bs, c, r, g1, g2, g3⟩ := this
  rw [e1, g2, ink_append, ink_blanks g1] at e2
  rcases g3 with rfl | rfl | rfl | rfl <;>
    (rw [ink_cons _ (by unfold Space; decide)] at e2; exact absurd e2 (by simp))

/-- The invariant. -/
structure Live (p : TParser) : Prop where
  own : Owned p.has p
  sec : p.filter.commentOnly = false → SecOwned p.has p
  ub : p.ub = false

theorem has_append {p q : TParser} {l : TLine} (am : Amended p.lines q.lines) (hf : q.st.filteredLines = p.st.filteredLines)
    {r : TParser} (hr : r.lines = q.lines ++ [l] ∧ r.st.filteredLines = q.st.filteredLines ∨
      r.lines = q.lines ∧ r.st.filteredLines = q.st.filteredLines ++ [l]) (i : Nat) :
    r.has i ↔ (i = l.id ∨ p.has i) := by
  rw [← has_of am hf i]
  unfold TParser.has
  rcases hr with ⟨h1, h2⟩ | ⟨h1, h2⟩
  · rw [h1, h2]
    constructor
    · rintro ⟨x, h, rfl⟩
      rcases h with h | h
      · rcases List.mem_append.1 h with h | h
        · exact .inr ⟨x, .inl h, rfl⟩
        · rw [List.mem_singleton.1 h]; exact .inl rfl
      · exact .inr ⟨x, .inr h, rfl⟩
    · rintro (rfl | ⟨x, h | h, rfl⟩)
      · exact ⟨l, .inl (by simp), rfl⟩
      · exact ⟨x, .inl (by simp [h]), rfl⟩
      · exact ⟨x, .inr h, rfl⟩
  · rw [h1, h2]
    constructor
    · rintro ⟨x, h, rfl⟩
      rcases h with h | h
      · exact .inr ⟨x, .inl h, rfl⟩
      · rcases List.mem_append.1 h with h | h
        · exact .inr ⟨x, .inr h, rfl⟩
        · rw [List.mem_singleton.1 h]; exact .inl rfl
    · rintro (rfl | ⟨x, h | h, rfl⟩)
      · exact ⟨l, .inr (by simp), rfl⟩
      · exact ⟨x, .inl h, rfl⟩
      · exact ⟨x, .inr (by simp [h]), rfl⟩

theorem lab_ub {p : TParser} : p.lab.1.ub = p.sec.ub := by
  unfold TParser.lab
  split
  · rfl
  · unfold TParser.handleLabelDefinition
    split <;> rfl

theorem lab_lines {p : TParser} : p.lab.1.lines = p.sec.lines := by
  unfold TParser.lab
  split
  · rfl
  · unfold TParser.handleLabelDefinition
    split <;> rfl

theorem lab_filtered {p : TParser} : p.lab.1.st.filteredLines = p.st.filteredLines := by
  have : p.sec.st.filteredLines = p.st.filteredLines := by
    obtain ⟨⟨_, _, _, _, _, _, _, _, e⟩, -, -⟩ := frame_sec p
    rw [e]; rfl
  unfold TParser.lab
  split
  · exact this
  · unfold TParser.handleLabelDefinition
    split <;> exact this

theorem live_eol (L : Locale) (p : TParser) (hb : Basic p) (hl : p.filter.libraryFunctions = false) (h : Live p) : Live (p.eol L) := by
  have hlab : Owned (fun i => i = p.nextId ∨ p.has i) p.lab.1 := lab_owned (h.own.mono fun _ hi => .inr hi) (.inl rfl)
  have hlabs : p.filter.commentOnly = false → SecOwned (fun i => i = p.nextId ∨ p.has i) p.lab.1 :=
    fun hc => lab_sect ((h.sec hc).mono fun _ hi => .inr hi) (.inl rfl)
  have am : Amended p.lines p.lab.1.lines := by rw [lab_lines]; exact (frame_sec p).lines
  have hfl := lab_filtered (p := p)
  have hub : p.lab.1.ub = false := by rw [lab_ub]; exact sec_ub h.own h.ub
  have hf : p.lab.1.filter = p.filter := by
    rw [lab_filter]
    obtain ⟨⟨_, _, _, _, _, _, _, _, e⟩, -, -⟩ := frame_sec p
    rw [e]; rfl
  refine eol_elim L p hb ?_ ?_ ?_ ?_ ?_ ?_ ?_
  · intros
    exact ⟨⟨h.own.stored, h.own.prev, h.own.parent, h.own.addr, h.own.file, h.own.ref, h.own.lines⟩,
      fun hc => ⟨(h.sec hc).cur, (h.sec hc).lines⟩, h.ub⟩
  · intros
    unfold TParser.maybeAddBlank
    split
    · exact ⟨⟨h.own.stored, h.own.prev, h.own.parent, h.own.addr, h.own.file, h.own.ref, h.own.lines⟩,
        fun hc => ⟨(h.sec hc).cur, (h.sec hc).lines⟩, h.ub⟩
    · split
      · exact ⟨⟨h.own.stored, h.own.prev, h.own.parent, h.own.addr, h.own.file, h.own.ref, h.own.lines⟩,
          fun hc => ⟨(h.sec hc).cur, (h.sec hc).lines⟩, h.ub⟩
      · have hh := has_append (p := p) (q := p) (.refl _) rfl
          (r := { p.start with lines := p.start.lines ++ [{ id := p.nextId + 1 }] }) (.inl ⟨rfl, rfl⟩)
        have h1 := h.own.mono fun i hi => (hh i).2 (.inr hi)
        have h2 := fun hc => (h.sec hc).mono fun i hi => (hh i).2 (.inr hi)
        refine ⟨⟨h1.stored, h1.prev, h1.parent, h1.addr, h1.file, h1.ref, ?_⟩, fun hc => ⟨(h2 hc).cur, ?_⟩, h.ub⟩
        · intro l hl
          rcases List.mem_append.1 hl with hl | hl
          · exact h1.lines l hl
          · rw [List.mem_singleton.1 hl]; exact owned_none
        · intro l hl
          rcases List.mem_append.1 hl with hl | hl
          · exact (h2 hc).lines l hl
          · rw [List.mem_singleton.1 hl]; exact owned_none
  · intros
    obtain ⟨⟨_, _, _, _, _, _, _, _, e⟩, am, -⟩ := frame_pre p
    have hh := has_of (p := p) (q := p.pre.clear) am (by rw [e]; rfl)
    have h1 := (owned_pre h.own).mono fun i hi => (hh i).2 hi
    refine ⟨⟨h1.stored, h1.prev, h1.parent, h1.addr, h1.file, h1.ref, h1.lines⟩, fun hc => ?_, ?_⟩
    · have hc' : p.filter.commentOnly = false := by
        have : p.pre.filter = p.filter := by rw [e]; rfl
        rw [← this]; exact hc
      have h2 := (h.sec hc').mono fun i hi => (hh i).2 hi
      refine ⟨?_, am.sect h2.lines⟩
      have : p.pre.st.currentSection = p.st.currentSection := by unfold TParser.pre; split <;> rfl
      show ∀ i, p.pre.st.currentSection.own = some i → _
      rw [this]
      exact h2.cur
    · show p.pre.ub = false
      unfold TParser.pre
      split <;> exact h.ub
  · intro _ _ _ hl'
    rw [hl] at hl'
    exact absurd hl' (by simp)
  · intro _ _ _ _ hc hj
    have hnh := comment_not_handled p hj
    obtain ⟨⟨_, _, _, _, _, _, _, _, e⟩, am, -⟩ := frame_sec p
    have hh := has_of (p := p) (q := p.sec'.clear) am (by show p.sec.st.filteredLines = _; rw [e]; rfl)
    have h1 := (sec_owned h.own (fun h => absurd h (by simp [hnh]))).mono fun i hi => (hh i).2 hi
    refine ⟨⟨h1.stored, h1.prev, h1.parent, h1.addr, h1.file, h1.ref, h1.lines⟩, fun hc' => ?_, sec_ub h.own h.ub⟩
    have : p.sec.filter = p.filter := by rw [e]; rfl
    have hc' : p.sec.filter.commentOnly = false := hc'
    rw [this, hc] at hc'
    exact absurd hc' (by simp)
  · intros
    obtain ⟨us, sd, e⟩ := extractDirective_frame p.lab.1 p.newLine.id p.newLine.text
    have h1 := dir_owned hlab (n := p.newLine.id) (.inl rfl) p.newLine.text
    rw [e] at h1 ⊢
    simp only
    have hh := has_append (p := p) (q := p.lab.1) am hfl (l := p.dirLine) (r := TParser.clear { p.lab.1 with
      usage := us, stored := sd, st := { p.lab.1.st with filteredLines := p.lab.1.st.filteredLines ++ [p.dirLine] } }) (.inr ⟨rfl, rfl⟩)
    rw [dirLine_id] at hh
    have h1 := h1.mono fun i hi => (hh i).2 hi
    refine ⟨⟨h1.stored, h1.prev, h1.parent, h1.addr, h1.file, h1.ref, h1.lines⟩, fun hc => ?_, hub⟩
    have h2 := (hlabs (by rw [← hf]; exact hc)).mono fun i hi => (hh i).2 hi
    exact ⟨h2.cur, h2.lines⟩
  · intro _ _ _ _ _ q ln hq
    have hq : Owned (fun i => i = p.nextId ∨ p.has i) q ∧ (p.filter.commentOnly = false → SecOwned (fun i => i = p.nextId ∨ p.has i) q) ∧
        Amended p.lines q.lines ∧ q.st.filteredLines = p.st.filteredLines ∧ q.ub = false ∧ q.filter = p.filter ∧ ln.id = p.nextId := by
      rcases hq with ⟨-, rfl, rfl⟩ | ⟨-, -, -, rfl, -, -, -, rfl⟩ | ⟨-, -, -, rfl, -, rfl⟩ | ⟨-, -, rfl, rfl⟩
      · split
        · exact ⟨⟨hlab.stored, hlab.prev, hlab.parent, hlab.addr, hlab.file, hlab.ref, hlab.lines⟩,
            fun hc => ⟨(hlabs hc).cur, (hlabs hc).lines⟩, am, hfl, hub, hf, lab_id p⟩
        · exact ⟨hlab, hlabs, am, hfl, hub, hf, lab_id p⟩
      · obtain ⟨us, sd, e⟩ := extractDirective_frame p.lab.1 p.newLine.id p.newLine.text
        have h1 := dir_owned hlab (n := p.newLine.id) (.inl rfl) p.newLine.text
        rw [e] at h1 ⊢
        exact ⟨h1, fun hc => ⟨(hlabs hc).cur, (hlabs hc).lines⟩, am, hfl, hub, hf, dirLine_id p⟩
      · exact ⟨hlab, hlabs, am, hfl, hub, hf, dirLine_id p⟩
      · exact ⟨hlab, hlabs, am, hfl, hub, hf, lab_id p⟩
    obtain ⟨h1, h2, h3, h4, h5, h6, h7⟩ := hq
    have h8 := finish_owned (L := L) (ln := ln) h1 (.inl h7)
    obtain ⟨us, sd, pl, e⟩ := eolFinish_frame L q ln
    have hh := has_append (p := p) (q := q) h3 h4 (l := finLine L q ln) (r := q.eolFinish L ln) (.inl ⟨by rw [e], by rw [e]⟩)
    have hid : (finLine L q ln).id = p.nextId := h7
    rw [hid] at hh
    refine ⟨h8.mono fun i hi => (hh i).2 hi, fun hc => ?_, by rw [e]; exact h5⟩
    have h9 := (h2 (by rw [← h6]; rw [e] at hc; exact hc)).mono fun i hi => (hh i).2 hi
    refine ⟨by rw [e] at h9 ⊢; exact h9.cur, ?_⟩
    intro l hl i hi
    rw [e] at hl
    rcases List.mem_append.1 hl with hl | hl
    · exact h9.lines l hl i hi
    · rw [List.mem_singleton.1 hl] at hi
      exact h9.cur i hi

theorem live_read (L : Locale) (f : Filter) (hl : f.libraryFunctions = false) (s : Str) : Live ((TParser.init f).readStream L s) := by
  refine (readStream_inv L f Live ?_ ?_ ?_ s).1
  · exact ⟨⟨by simp [TParser.init], owned_none, owned_none, owned_none, owned_none, owned_none, by simp [TParser.init]⟩,
      fun _ => ⟨owned_none, by simp [TParser.init]⟩, rfl⟩
  · intro p l h
    exact ⟨⟨h.own.stored, h.own.prev, h.own.parent, h.own.addr, h.own.file, h.own.ref, h.own.lines⟩,
      fun hc => ⟨(h.sec hc).cur, (h.sec hc).lines⟩, h.ub⟩
  · intro p hf hb h _
    exact live_eol L p hb (by rw [hf]; exact hl) h


/-! ### After reading -/

theorem markLoop_ub_same {o : Order} {n : Nat} (ls : List Str) {p p' : TParser} {v v' : List Str}
    (h : p.markLoop o n ls v = some (p', v'))
    (hl : ∀ l ∈ ls, (p.labelsDefined.lookup l).getD 0 - 1 < p.lines.length) : p'.ub = p.ub := by
  induction ls generalizing p v with
  | nil =>
    unfold TParser.markLoop at h
    simp only [Option.some.injEq, Prod.mk.injEq] at h
    rw [h.1]
  | cons l ls ih =>
    unfold TParser.markLoop at h
    rw [List.forall_mem_cons] at hl
    simp only at h
    rw [List.getElem?_eq_getElem hl.1] at h
    simp only at h
    split at h
    · exact absurd h (by simp)
    · have := ih h (by simpa using hl.2)
      exact this

theorem removeLoop_ids (p : TParser) (r : RemState) (ls : List TLine) {l : TLine} (hl : l ∈ ls) :
    (∃ l' ∈ (p.removeLoop r ls).1, l'.id = l.id) ∨ l ∈ (p.removeLoop r ls).2 := by
  induction ls generalizing r with
  | nil => exact absurd hl (by simp)
  | cons x ls ih =>
    unfold TParser.removeLoop
    simp only
    split
    · rcases List.mem_cons.1 hl with rfl | hl
      · exact .inr (List.mem_cons_self ..)
      · rcases ih (remLabel p.filter p.usage r x).1 hl with h | h
        · exact .inl h
        · exact .inr (List.mem_cons_of_mem _ h)
    · rcases List.mem_cons.1 hl with rfl | hl
      · refine .inl ⟨_, List.mem_cons_self .., ?_⟩
        unfold TParser.finishKept
        simp only
        split
        · split <;> rfl
        · rfl
      · rcases ih (remLabel p.filter p.usage r x).1 hl with ⟨l', h, e⟩ | h
        · exact .inl ⟨l', List.mem_cons_of_mem _ h, e⟩
        · exact .inr h

theorem finishKept_own (p : TParser) (l : TLine) (i : Nat) (h : (p.finishKept l).source.file.own = some i) :
    l.source.file.own = some i := by
  unfold TParser.finishKept at h
  simp only at h
  split at h
  · split at h
    · exact absurd h (by simp)
    · exact absurd h (by simp)
  · exact h

theorem finishKept_sect (p : TParser) (l : TLine) : (p.finishKept l).sect = l.sect := by
  unfold TParser.finishKept
  simp only
  split
  · split <;> rfl
  · rfl

theorem mem_of_lookup {k : Str} {m : List (Str × Nat)} {v : Nat} (h : m.lookup k = some v) : (k, v) ∈ m := by
  induction m with
  | nil => exact absurd h (by simp)
  | cons e m ih =>
    obtain ⟨k', v'⟩ := e
    rw [List.lookup_cons] at h
    split at h
    · rename_i hk
      simp only [Option.some.injEq] at h
      subst h
      rw [eq_of_beq hk]
      exact List.mem_cons_self ..
    · exact List.mem_cons_of_mem _ (ih h)

theorem lookup_of_key {k : Str} {m : List (Str × Nat)} (h : k ∈ m.map (·.1)) : ∃ v, m.lookup k = some v := by
  induction m with
  | nil => exact absurd h (by simp)
  | cons e m ih =>
    obtain ⟨k', v'⟩ := e
    rw [List.lookup_cons]
    split
    · exact ⟨_, rfl⟩
    · rename_i hk
      rw [List.map_cons, List.mem_cons] at h
      rcases h with rfl | h
      · simp at hk
      · exact ih h

theorem live_result {L : Locale} {f : Filter} {s : Str} {p : TParser} (h : TextResult L f s p) (hl : f.libraryFunctions = false) :
    Live p := by
  obtain ⟨o, n, v, v', h⟩ := h
  have hr := live_read L f hl s
  obtain ⟨e, -, ht⟩ := textInv L f s
  have ht := ht.table
  unfold TParser.fromStream at h
  generalize (TParser.init f).readStream L s = q at h hr ht
  split at h
  · exact absurd h (by simp)
  · rename_i q2 v2 hm
    simp only [Option.some.injEq, Prod.mk.injEq] at h
    obtain ⟨h, -⟩ := h
    have hub : q2.ub = q.ub := by
      refine markLoop_ub_same (p := q.filterNonLabels) _ hm fun l hl => ?_
      have hl := ((o.perm _ _).mem_iff).1 hl
      obtain ⟨i, hi⟩ := lookup_of_key hl
      rw [hi]
      obtain ⟨-, x, hx, -⟩ := ht.sound _ (mem_of_lookup hi)
      exact (List.getElem?_eq_some_iff.1 hx).1
    obtain ⟨ls, ub, rfl, hn⟩ := markLabelUsage_frame hm
    have hn : ls.map TLine.noUse = q.lines.map TLine.noUse := hn
    have hub : ub = q.ub := hub
    have huse : ∀ l ∈ ls, ∃ l0 ∈ q.lines, l0.id = l.id ∧ l0.source = l.source ∧ l0.sect = l.sect := by
      intro l hl
      have : l.noUse ∈ ls.map TLine.noUse := List.mem_map_of_mem hl
      rw [hn, List.mem_map] at this
      obtain ⟨l0, h0, e⟩ := this
      exact ⟨l0, h0, by have := congrArg TLine.id e; exact this, by have := congrArg TLine.source e; exact this,
        by have := congrArg TLine.sect e; exact this⟩
    have huse' : ∀ l ∈ q.lines, ∃ l0 ∈ ls, l0.id = l.id := by
      intro l hl
      have : l.noUse ∈ q.lines.map TLine.noUse := List.mem_map_of_mem hl
      rw [← hn, List.mem_map] at this
      obtain ⟨l0, h0, e⟩ := this
      exact ⟨l0, h0, by have := congrArg TLine.id e; exact this⟩
    subst h
    generalize hq3 : ({ q.filterNonLabels with lines := ls, ub := ub } : TParser) = q3
    have e1 : q3.lines = ls := by rw [← hq3]
    have e2 : q3.st = q.st := by rw [← hq3]; rfl
    have e3 : q3.stored = q.stored := by rw [← hq3]; rfl
    have e4 : q3.filter = q.filter := by rw [← hq3]; rfl
    have e5 : q3.ub = q.ub := by rw [← hq3]; exact hub
    have hh : ∀ i, q.has i → q3.removeUnused.has i := by
      rintro i ⟨l, h1 | h1, rfl⟩
      · obtain ⟨l0, h2, h3⟩ := huse' l h1
        rw [← e1] at h2
        rcases removeLoop_ids q3 {} q3.lines h2 with ⟨l', h4, h5⟩ | h4
        · exact ⟨l', .inl h4, h5.trans h3⟩
        · exact ⟨l0, .inr (List.mem_append_right _ h4), h3⟩
      · exact ⟨l, .inr (List.mem_append_left _ (by rw [e2]; exact h1)), rfl⟩
    obtain ⟨sub, h1, h2⟩ := removeLoop_sublist q3 {} q3.lines
    have hlines : ∀ l ∈ q3.removeUnused.lines, ∃ l0 ∈ q.lines, (∀ i, l.source.file.own = some i → l0.source.file.own = some i) ∧
        l0.sect = l.sect := by
      intro l hl
      have hl : l ∈ (q3.removeLoop {} q3.lines).1 := hl
      rw [h2, List.mem_map] at hl
      obtain ⟨l1, h3, rfl⟩ := hl
      have h4 := h1.subset h3
      rw [e1] at h4
      obtain ⟨l0, h5, -, h6, h7⟩ := huse l1 h4
      exact ⟨l0, h5, fun i hi => by rw [h6]; exact finishKept_own q3 l1 i hi, by rw [finishKept_sect, h7]⟩
    have ho := hr.own.mono hh
    refine ⟨⟨?_, ?_, ?_, ?_, ?_, ?_, ?_⟩, fun hc => ?_, ?_⟩
    · show ∀ i, some i ∈ q3.stored → _
      rw [e3]; exact ho.stored
    · show ∀ i, q3.st.previousLabel.own = some i → _
      rw [e2]; exact ho.prev
    · show ∀ i, q3.st.previousParentLabel.own = some i → _
      rw [e2]; exact ho.parent
    · show ∀ i, q3.st.previousLabelOnSameAddress.own = some i → _
      rw [e2]; exact ho.addr
    · show ∀ i, q3.st.currentSourceFile.own = some i → _
      rw [e2]; exact ho.file
    · show ∀ i, q3.st.currentSourceRef.file.own = some i → _
      rw [e2]; exact ho.ref
    · intro l hl i hi
      obtain ⟨l0, h3, h4, -⟩ := hlines l hl
      exact ho.lines l0 h3 i (h4 i hi)
    · have hc : q3.filter.commentOnly = false := hc
      rw [e4] at hc
      have hs := (hr.sec hc).mono hh
      refine ⟨?_, ?_⟩
      · show ∀ i, q3.st.currentSection.own = some i → _
        rw [e2]; exact hs.cur
      · intro l hl i hi
        obtain ⟨l0, h3, -, h4⟩ := hlines l hl
        rw [← h4] at hi
        exact hs.lines l0 h3 i hi
    · show q3.ub = false
      rw [e5]; exact hr.ub

end AsmParser
