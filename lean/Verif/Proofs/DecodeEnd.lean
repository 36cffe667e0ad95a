/-
Helper lemmas for C73: the end of a line, and all lines.
-/
import Verif.Proofs.DecodeLine

namespace AsmParser

variable {L : Locale} {c : Carry} {p : OParser}

theorem titleName_eq (t : Str) : titleName t = labelText t := by
  unfold titleName labelText getLabelFromObjdumpLabel startsWith endsWith
  cases t with
  | nil => rfl
  | cons a r =>
    by_cases ha : a = c! '<'
    · subst ha
      by_cases hr : b! ">:" <:+ r
      · have h2 : (b! ">:").isSuffixOf (c! '<' :: r) = true :=
          List.isSuffixOf_iff_suffix.2 (hr.trans (List.suffix_cons _ _))
        have h3 : 2 ≤ r.length := hr.length_le
        simp [hr, h2]
      · have h2 : (b! ">:").isSuffixOf (c! '<' :: r) = false := by
          rw [← Bool.not_eq_true, List.isSuffixOf_iff_suffix]
          intro h
          rcases List.suffix_cons_iff.1 h with h | h
          · simp at h
          · exact hr h
        simp [hr, h2]
    · simp [ha, Ne.symm ha]

theorem bare_plain (hl : p.st.inLabel = true → p.st.text = []) :
    p.bare.eol.lines = (if p.st.ignoreUntilNextLabel || p.st.inSourceRefLineNumber || p.st.text.isEmpty then [] else [p.st.finishLine]) ∧
    p.bare.eol.st = (if !p.st.ignoreUntilNextLabel && p.st.inSourceRefLineNumber then p.st.updateSourceRefLineNumber
      else p.st).commonReset := by
  have key : p.bare.eol = (p.bare.eolTail).setTot (p.bare.totalLines + 1) := by
    rw [eol_eq]
    split
    · rename_i h1
      have h2 : p.bare.st.text = [] := hl h1
      rw [label_nil h2]
      unfold OParser.eolTail OParser.setTot
      dsimp only
      simp only [h2]
      split
      · rfl
      split
      · simp [updateSourceRef_eq, srcUpd, srcUb, h2, OState.commonReset]
      · rfl
    · rfl
  rw [key]
  simp only [OParser.eolTail, OParser.setTot, OParser.bare]
  by_cases h1 : p.st.ignoreUntilNextLabel = true
  · simp [h1]
  by_cases h2 : p.st.inSourceRefLineNumber = true
  · simp [h1, h2]
  by_cases h3 : p.st.text = []
  · simp [h1, h2, h3]
  have h4 : 0 < maxLines := by decide
  simp [h1, h2, h3, h4]

theorem bare_header (hl : p.st.inLabel = true) (ht : p.st.text ≠ []) (hs : p.st.inSourceRefLineNumber = false) :
    p.bare.eol.lines = (if shouldIgnoreFunction (labelText p.st.text) p.filter then [] else
      [{ p.st.currentLine with
          text := labelText p.st.text ++ b! ":", sect := p.st.currentSection, label := labelText p.st.text, isLabel := true,
          source := p.st.currentSourceRef }]) ∧
    p.bare.eol.st.stopParsing = p.st.stopParsing ∧ p.bare.eol.st.view = { p.st.commonReset.view with
      ign := shouldIgnoreFunction (labelText p.st.text) p.filter } := by
  have e2 : p.bare.eol = (p.bare.label.eolTail).setTot (p.totalLines + 1) := by rw [eol_eq, if_pos (by exact hl)]; rfl
  have hpo : p.bare.prune = p.bare := prune_off rfl
  cases hi : shouldIgnoreFunction (labelText p.st.text) p.filter
  · rw [e2, label_kept (p := p.bare) ht (by exact hi), hpo]
    simp only [OParser.eolTail, hs, OParser.setTot, OParser.bare, Bool.false_eq_true, ↓reduceIte]
    have h1 : (labelText p.st.text ++ b! ":").isEmpty = false := by simp
    have h2 : ([] : List AsmLine).length < maxLines := by decide
    simp only [h1, Bool.not_false, ↓reduceIte, h2, List.nil_append]
    simp [OState.finishLine, OState.view, OState.commonReset]
  · rw [e2, label_ignored (p := p.bare) ht (by exact hi), hpo]
    simp [OParser.eolTail, OParser.setTot, OParser.bare, OState.view, OState.commonReset]

theorem boundary_bare : Boundary p.bare.eol.st := Boundary.eol _

/-- What the end of a line does, apart from the output before it. -/
theorem line_end {k : LineKind} (h : Ends L p.filter c k p.st.view) (hst : p.st.stopParsing = false) :
    p.bare.eol.lines = (c.shown (theReading L) (leftOut p.filter.plt) k).toList ∧
    CAt (c.next (theReading L) (leftOut p.filter.plt) k) p.bare.eol.st ∧
    (if k.begins then p.st.inLabel = true ∧ p.st.text ≠ [] else p.st.inLabel = true → p.st.text = []) := by
  obtain ⟨hn, hi, hk⟩ := h
  simp only [OState.view] at hn hi hk
  have hplain : (p.st.inLabel = true → p.st.text = []) → p.st.inSourceRefLineNumber = false →
      CAt { sect := p.st.currentSection, source := p.st.currentSourceRef, ign := c.ign, opened := p.st.view.opened } p.bare.eol.st := by
    intro hl hs
    have := (bare_plain hl).2
    rw [hs, Bool.and_false, if_neg (by simp)] at this
    refine ⟨boundary_bare, ?_, ?_, ?_, ?_, ?_, ?_⟩ <;> rw [this]
    · exact hst
    · exact hn
    · rfl
    · rfl
    · exact hi
    · rfl
  cases k with
  | remark =>
    obtain ⟨a1, a2, a3, a4, a5⟩ := hk
    have hl : p.st.inLabel = true → p.st.text = [] := fun _ => a1
    refine ⟨?_, ?_, hl⟩
    · rw [(bare_plain hl).1]; simp [a1, Carry.shown]
    · have := hplain hl a2
      rw [a3, a4, show p.st.view.opened = c.opened from a5] at this
      exact this
  | «section» n =>
    obtain ⟨a0, a1, a2, a3, a4, a5⟩ := hk
    have hl : p.st.inLabel = true → p.st.text = [] := fun _ => a1
    refine ⟨?_, ?_, hl⟩
    · rw [(bare_plain hl).1]; simp [a1, Carry.shown]
    · have := hplain hl a2
      rw [a3, a4, show p.st.view.opened = c.opened from a5] at this
      exact this
  | noSection t =>
    obtain ⟨a0, a1, a2, a3, a4, a5, a6, a7⟩ := hk
    have hl : p.st.inLabel = true → p.st.text = [] := fun h => by rw [a0] at h; cases h
    refine ⟨?_, ?_, hl⟩
    · rw [(bare_plain hl).1, hi, a3, a2]
      cases hc : c.ign <;> simp [Carry.shown, hc, a1, OState.finishLine, a2, a4, a5, a7]
    · have := hplain hl a3
      rw [a4, a5, show p.st.view.opened = c.opened from a6] at this
      exact this
  | source file n en =>
    obtain ⟨a0, a1, a2, a3, a4, a5⟩ := hk
    have hl : p.st.inLabel = true → p.st.text = [] := fun h => by rw [a0] at h; cases h
    refine ⟨?_, ?_, hl⟩
    · rw [(bare_plain hl).1, a2]; simp [Carry.shown]
    · have := (bare_plain hl).2
      rw [a2, Bool.and_true] at this
      cases hc : c.ign
      · rw [hi, hc] at this
        simp only [Bool.not_false, if_true, updateSourceRef_eq] at this
        refine ⟨boundary_bare, ?_, ?_, ?_, ?_, ?_, ?_⟩ <;> rw [this]
        · exact hst
        · exact hn
        · exact a3
        · show srcUpd p.st = _
          cases en
          · simp only [Bool.false_eq_true, if_false] at a1 a4
            rw [srcUpd_number (L := L) a4, a1]
            simp [Carry.next, hc]
          · simp only [if_true] at a1 a4
            have h0 : atoi ([] : Str) = 0 := rfl
            simp [srcUpd, srcUb, a1, h0, a4, Carry.next]
        · exact hi
        · exact a5
      · rw [hi, hc] at this
        simp only [Bool.not_true, Bool.false_eq_true, if_false] at this
        refine ⟨boundary_bare, ?_, ?_, ?_, ?_, ?_, ?_⟩ <;> rw [this]
        · exact hst
        · exact hn
        · exact a3
        · refine a4.trans ?_
          cases en <;> simp [Carry.next, hc]
        · exact hi
        · exact a5
  | header a t =>
    obtain ⟨a0, a1, a2, a3, a4, a5, a6⟩ := hk
    by_cases ht : t = []
    · have hl : p.st.inLabel = true → p.st.text = [] := fun _ => a1.trans ht
      have hb : (LineKind.header a t).begins = false := by simp [LineKind.begins, ht]
      rw [hb]
      refine ⟨?_, ?_, hl⟩
      · rw [(bare_plain hl).1]; simp [a1, ht, Carry.shown]
      · have := hplain hl a2
        rw [a3, a4, show p.st.view.opened = c.opened from a5] at this
        simp only [Carry.next, ht, if_true]
        exact this
    · have hne : p.st.text ≠ [] := by rw [a1]; exact ht
      have hb : (LineKind.header a t).begins = true := by simp [LineKind.begins, ht]
      rw [hb]
      obtain ⟨g1, g2, g3⟩ := bare_header a0 hne a2
      have hd : shouldIgnoreFunction (labelText p.st.text) p.filter = leftOut p.filter.plt (titleName t) := by
        rw [leftOut_eq, titleName_eq, a1]
      refine ⟨?_, ?_, a0, hne⟩
      · rw [g1, hd, a1, ← titleName_eq, a6, a3, a4]
        simp only [Carry.shown, ht, decide_false, Bool.false_or]
        cases leftOut p.filter.plt (titleName t) <;> simp
      · simp only [Carry.next, ht, if_false]
        refine ⟨boundary_bare, g2.trans hst, (congrArg OView.name g3).trans hn, (congrArg OView.sect g3).trans a3,
          (congrArg OView.source g3).trans a4, ?_, (congrArg OView.opened g3).trans a5⟩
        rw [← hd]; exact congrArg OView.ign g3
  | code a b fr r =>
    obtain ⟨a0, a1, a2, a3, a4, a5, a6⟩ := hk
    have hl : p.st.inLabel = true → p.st.text = [] := fun h => by rw [a0] at h; cases h
    refine ⟨?_, ?_, hl⟩
    · rw [(bare_plain hl).1, hi, a2, a1]
      cases hc : c.ign
      · simp only [Carry.shown, hc, Bool.false_or]
        split
        · rfl
        · simp [OState.finishLine, a1, a3, a4, a6 hc, shownRef, addCols]
      · simp [Carry.shown, hc]
    · have := hplain hl a2
      rw [a3, a4, show p.st.view.opened = _ from a5] at this
      exact this

/-- What stays of the output when the line is read. -/
def OParser.keep (b : Bool) (p : OParser) : OParser := if b then p.prune else p

theorem line_all {l : Str} (hl : (10 : Byte) ∉ l) (hl13 : (13 : Byte) ∉ l) (hat : CAt c p.st) (ht : p.labels = labelTable 1 p.lines) :
    let k := lineKind c.ign l
    let q := (l ++ [10]).foldl (OParser.feed L) p
    let b := p.keep k.begins
    match c.shown (theReading L) (leftOut p.filter.plt) k with
    | none => CAt (c.next (theReading L) (leftOut p.filter.plt) k) q.st ∧ q.lines = b.lines ∧ q.labels = b.labels
    | some l => l.isLabel = k.begins ∧ q.labels = b.labels ++ (if l.isLabel then [(l.label, b.lines.length + 1)] else []) ∧
      if b.lines.length < 5000 then CAt (c.next (theReading L) (leftOut p.filter.plt) k) q.st ∧ q.lines = b.lines ++ [l]
      else q.lines = b.lines ++ [markerLine] ∧ q.st.stopParsing = true := by
  intro k q b
  have e : q = ({ p with st := p.st.read L p.filter l } : OParser).eol := feed_readline hl p hat.stop
  have hm : Modes (p.st.read L p.filter l) := read_modes hat.b.modes _
  have hst : (p.st.read L p.filter l).stopParsing = false := (read_stop _).trans hat.stop
  obtain ⟨h1, h2, h3⟩ := line_end (p := { p with st := p.st.read L p.filter l }) (line_read (f := p.filter) hat hl13) hst
  have hk : lineKind c.ign l = k := rfl
  rw [hk] at h1 h2 h3
  clear_value k q
  have h1 : ({ p with st := p.st.read L p.filter l } : OParser).bare.eol.lines =
    (c.shown (theReading L) (leftOut p.filter.plt) k).toList := h1
  have h2 : CAt (c.next (theReading L) (leftOut p.filter.plt) k) ({ p with st := p.st.read L p.filter l } : OParser).bare.eol.st := h2
  cases hh : k.begins
  · have hb : b = p := by simp [b, OParser.keep, hh]
    rw [hh] at h3
    have hp := eol_plain (p := { p with st := p.st.read L p.filter l }) h3 hm
    rw [← e, h1] at hp
    rw [hb]
    cases hs : c.shown (theReading L) (leftOut p.filter.plt) k with
    | none =>
      rw [hs] at hp
      have := hp.1 rfl
      exact ⟨by rw [this.1]; exact h2, this.2⟩
    | some x =>
      rw [hs] at hp
      obtain ⟨g1, g2, g3⟩ := hp.2 x rfl
      refine ⟨g1, by rw [g2, g1]; simp, ?_⟩
      dsimp only at g3
      split
      · rename_i hlt
        rw [if_pos hlt] at g3
        exact ⟨by rw [g3.1]; exact h2, g3.2⟩
      · rename_i hlt
        rw [if_neg hlt] at g3
        exact ⟨g3.1, g3.2.1⟩
  · have hb : b = p.prune := by simp [b, OParser.keep, hh]
    rw [hh] at h3
    have hpr : ∀ s : OState, ({ p with st := s } : OParser).prune.lines = p.prune.lines ∧
        ({ p with st := s } : OParser).prune.labels = p.prune.labels := by
      intro s
      unfold OParser.prune OParser.maybeRemoveLastFunction
      dsimp only
      split
      · cases p.labels.getLast? with
        | none => exact ⟨rfl, rfl⟩
        | some x => dsimp only; split <;> exact ⟨rfl, rfl⟩
      · exact ⟨rfl, rfl⟩
    have hp := eol_header (p := { p with st := p.st.read L p.filter l }) h3.1 h3.2 hm ht
    rw [← e, h1, (hpr _).1, (hpr _).2] at hp
    rw [hb]
    cases hs : c.shown (theReading L) (leftOut p.filter.plt) k with
    | none =>
      rw [hs] at hp
      have := hp.1 rfl
      exact ⟨by rw [this.1]; exact h2, this.2⟩
    | some x =>
      rw [hs] at hp
      obtain ⟨g1, g2, g3⟩ := hp.2 x rfl
      refine ⟨g1, by rw [g2, g1]; simp, ?_⟩
      split
      · rename_i hlt
        rw [if_pos hlt] at g3
        exact ⟨by rw [g3.1]; exact h2, g3.2⟩
      · rename_i hlt
        rw [if_neg hlt] at g3
        exact ⟨g3.1, g3.2.1⟩

/-! ### All lines -/

/-- The output of the parser is the one of the specification. -/
structure CPagesAt (c : Carry) (b : Pages) (p : OParser) : Prop where
  at_ : CAt c p.st
  lines : p.lines = b.lines
  table : p.labels = labelTable 1 p.lines
  cap : p.lines.length ≤ 5000
  notFull : b.full = false
  noExtra : b.extra = []
  enclosed : p.filter.libraryFunctions = true → Enclosed p.lines p.labels
  cur : (∃ l rest, b.cur = l :: rest ∧ l.isLabel = true ∧ ∀ x ∈ rest, x.isLabel = false) ∨
    (∀ x ∈ b.lines, x.isLabel = false) ∨
    (b.cur = [] ∧ c.ign = true ∧ (p.filter.libraryFunctions = true → LastUser p))

/-- Closing a function. -/
theorem CPagesAt.close {b : Pages} (h : CPagesAt c b p) :
    p.prune.lines = (b.close p.filter.libraryFunctions).done ∧ (b.close p.filter.libraryFunctions).cur = [] ∧
    p.prune.labels = labelTable 1 p.prune.lines ∧ (b.close p.filter.libraryFunctions).full = false ∧
    (b.close p.filter.libraryFunctions).extra = [] ∧
    (p.filter.libraryFunctions = true → Enclosed p.prune.lines p.prune.labels ∧ LastUser p.prune) := by
  have hfull : (b.close p.filter.libraryFunctions).full = false := by
    unfold Pages.close; split <;> exact h.notFull
  have hext : (b.close p.filter.libraryFunctions).extra = [] := by
    unfold Pages.close; split <;> exact h.noExtra
  have hcur : (b.close p.filter.libraryFunctions).cur = [] := by
    unfold Pages.close; split <;> rfl
  refine ⟨?_, hcur, (prune_table h.table).1, hfull, hext, fun hl => prune_enclosed hl h.table (h.enclosed hl)⟩
  cases hlib : p.filter.libraryFunctions
  · rw [prune_off hlib, h.lines]; simp [Pages.close, Pages.lines]
  · rcases h.cur with ⟨l, rest, hc, hl, hr⟩ | hc | ⟨hc, _, hu⟩
    · have hlab : p.labels = labelTable 1 b.done ++ [(l.label, b.done.length + 1)] := by
        rw [h.table, h.lines, Pages.lines, labelTable_append, hc]
        simp [labelTable, hl, labelTable_none hr, Nat.add_comm]
      unfold OParser.prune OParser.maybeRemoveLastFunction Pages.close
      have hst : startsFunction b.cur = true := by simp [startsFunction, hc, hl]
      have hd : p.lines.drop (b.done.length + 1 - 1) = b.cur := by rw [h.lines, Pages.lines]; simp
      have hk : p.lines.take (b.done.length + 1 - 1) = b.done := by rw [h.lines, Pages.lines]; simp
      simp only [hlib, ↓reduceIte, hlab, List.getLast?_concat, hd, hst, Bool.and_self, Bool.true_and, hasUserLine, Bool.not_eq_true']
      cases hu : b.cur.any (fun l => l.source.isUsercode)
      · simpa using hk
      · simp [h.lines, Pages.lines]
    · have hlab : p.labels = [] := by rw [h.table, h.lines]; exact labelTable_none hc
      have hst : startsFunction b.cur = false := by
        unfold startsFunction
        cases hcc : b.cur with
        | nil => rfl
        | cons x xs => exact hc x (by simp [Pages.lines, hcc])
      unfold OParser.prune OParser.maybeRemoveLastFunction Pages.close
      simp [hlib, hlab, hst, h.lines, Pages.lines]
    · have hp : p.prune = p := by
        unfold OParser.prune OParser.maybeRemoveLastFunction
        simp only [hlib, ↓reduceIte]
        cases hg : p.labels.getLast? with
        | none => rfl
        | some x =>
          obtain ⟨T, hT⟩ := List.getLast?_eq_some_iff.1 hg
          obtain ⟨y, hy, hy'⟩ := hu hlib T x.1 x.2 hT
          have : (p.lines.drop (x.2 - 1)).any (fun l => l.source.isUsercode) = true := List.any_eq_true.2 ⟨y, hy, hy'⟩
          simp only [this, ↓reduceIte]
      rw [hp, h.lines]
      unfold Pages.close
      have hst : startsFunction b.cur = false := by rw [hc]; rfl
      simp [hst, Pages.lines]

/-- Result of the parser, full or not. -/
def CPagesEnd (b : Pages) (p : OParser) : Prop :=
  p.lines = b.lines ∧ p.labels = labelTable 1 p.lines ++ b.extra

theorem CPagesAt.end {b : Pages} (h : CPagesAt c b p) : CPagesEnd b p :=
  ⟨h.lines, by rw [h.table, h.noExtra, List.append_nil]⟩

theorem decodeLines_full {R : Reading} {drop : Str → Bool} {lib : Bool} {b : Pages} (h : b.full = true) (ls : List Str) :
    decodeLines R drop lib c b ls = b := by
  induction ls generalizing c with
  | nil => rfl
  | cons i is ih => simp only [decodeLines, Pages.next, h, ↓reduceIte, ih]

theorem next_ign_plain {R : Reading} {drop : Str → Bool} {k : LineKind} (h : k.begins = false) : (c.next R drop k).ign = c.ign := by
  cases k <;> simp_all [Carry.next, LineKind.begins]

theorem shown_none_begins {R : Reading} {drop : Str → Bool} {k : LineKind} (h : k.begins = true) (hs : c.shown R drop k = none) :
    (c.next R drop k).ign = true := by
  cases k <;> simp_all [Carry.next, Carry.shown, LineKind.begins]

theorem shown_ign {R : Reading} {drop : Str → Bool} {k : LineKind} (h : k.begins = false) (hi : c.ign = true) :
    c.shown R drop k = none := by
  cases k <;> simp_all [Carry.shown, LineKind.begins]

theorem decodeLines_step {b : Pages} {l : Str} (hl : (10 : Byte) ∉ l) (hl13 : (13 : Byte) ∉ l) (h : CPagesAt c b p) :
    let k := lineKind c.ign l
    let q := (l ++ [10]).foldl (OParser.feed L) p
    let b' := b.next p.filter.libraryFunctions k.begins (c.shown (theReading L) (leftOut p.filter.plt) k)
    (b'.full = false ∧ CPagesAt (c.next (theReading L) (leftOut p.filter.plt) k) b' q) ∨
      (b'.full = true ∧ q.st.stopParsing = true ∧ CPagesEnd b' q) := by
  have hla := line_all (L := L) hl hl13 h.at_ h.table
  have hf := feed_keeps_filter (L := L) (p := p) (l ++ [10])
  intro k q b'
  have eq : (l ++ [10]).foldl (OParser.feed L) p = q := rfl
  rw [eq] at hf
  have ek : lineKind c.ign l = k := rfl
  simp only [eq, ek] at hla
  clear_value q k
  have hB : ∃ b0 : Pages, b0 = (if k.begins then b.close p.filter.libraryFunctions else b) ∧ (p.keep k.begins).lines = b0.lines ∧
      (p.keep k.begins).labels = labelTable 1 (p.keep k.begins).lines ∧ b0.full = false ∧ b0.extra = [] ∧
      (p.filter.libraryFunctions = true → Enclosed (p.keep k.begins).lines (p.keep k.begins).labels) ∧
      (k.begins = true → b0.cur = [] ∧ (p.filter.libraryFunctions = true → LastUser (p.keep k.begins))) := by
    refine ⟨_, rfl, ?_⟩
    cases hh : k.begins
    · simp only [OParser.keep, Bool.false_eq_true, ↓reduceIte, false_imp_iff, and_true]
      exact ⟨h.lines, h.table, h.notFull, h.noExtra, h.enclosed⟩
    · obtain ⟨g1, g2, g3, g4, g5, g6⟩ := h.close
      simp only [OParser.keep, ↓reduceIte]
      exact ⟨by rw [g1, Pages.lines, g2, List.append_nil], g3, g4, g5, fun hl => (g6 hl).1, fun _ => ⟨g2, fun hl => (g6 hl).2⟩⟩
  obtain ⟨b0, e0, g1, g2, g3, g4, g5, g6⟩ := hB
  have hb' : b' = match c.shown (theReading L) (leftOut p.filter.plt) k with | none => b0 | some l => b0.add l := by
    simp only [b', Pages.next, h.notFull, Bool.false_eq_true, ↓reduceIte, ← e0]
    cases c.shown (theReading L) (leftOut p.filter.plt) k <;> rfl
  have hq : q.filter = p.filter := hf
  have hcap : (p.keep k.begins).lines.length ≤ 5000 := by
    have := h.cap
    have := prune_lines_le p
    unfold OParser.keep
    split <;> omega
  have e00 : k.begins = false → b0 = b := fun hh => by rw [e0, hh]; rfl
  have eB : k.begins = false → p.keep k.begins = p := fun hh => by simp [OParser.keep, hh]
  cases ho : c.shown (theReading L) (leftOut p.filter.plt) k with
  | none =>
    rw [ho] at hb' hla
    obtain ⟨a1, a2, a3⟩ := hla
    left
    rw [hb']
    refine ⟨g3, a1, by rw [a2, g1], by rw [a2, a3, g2], by rw [a2]; exact hcap, g3, g4, fun hl => by rw [a2, a3]; exact g5 (by rw [← hq]; exact hl), ?_⟩
    cases hh : k.begins
    · rw [e00 hh] at g1 ⊢
      rcases h.cur with hc | hc | ⟨hc1, hc2, hc3⟩
      · exact .inl hc
      · exact .inr (.inl hc)
      · refine .inr (.inr ⟨hc1, ?_, ?_⟩)
        · rw [next_ign_plain hh, hc2]
        · intro hl T n m e
          rw [a3, eB hh] at e
          rw [a2, eB hh]
          exact hc3 (by rw [← hq]; exact hl) T n m e
    · obtain ⟨k1, k2⟩ := g6 hh
      refine .inr (.inr ⟨k1, shown_none_begins hh ho, ?_⟩)
      intro hl T n m e
      rw [a3] at e
      rw [a2]
      exact k2 (by rw [← hq]; exact hl) T n m e
  | some x =>
    rw [ho] at hb' hla
    obtain ⟨a1, a2, a3⟩ := hla
    by_cases hlt : (p.keep k.begins).lines.length < 5000
    · rw [if_pos hlt] at a3
      obtain ⟨a3, a4⟩ := a3
      have hb'' : b' = { b0 with cur := b0.cur ++ [x] } := by
        rw [hb']; exact if_pos (by rw [← g1]; exact hlt)
      have hln : q.lines = b'.lines := by rw [a4, g1, hb'']; simp [Pages.lines]
      have htab : q.labels = labelTable 1 q.lines := by
        rw [a2, a4, labelTable_append, ← g2]
        simp only [labelTable, Nat.add_comm]
      left
      refine ⟨by rw [hb'']; exact g3, a3, hln, htab, by rw [a4]; simp; omega, by rw [hb'']; exact g3, by rw [hb'']; exact g4, ?_, ?_⟩
      · intro hl
        rw [hq] at hl
        rw [a2, a4]
        cases hh : k.begins
        · rw [hh] at a1 g5
          rw [a1]
          simp only [Bool.false_eq_true, ↓reduceIte, List.append_nil]
          exact (g5 hl).append
        · rw [hh] at a1 g5
          have g62 := (g6 hh).2 hl
          rw [hh] at g62
          rw [a1]
          exact (g5 hl).snoc g62 _ _
      · cases hh : k.begins
        · have hnl : x.isLabel = false := by rw [a1, hh]
          rw [hb'']
          rw [e00 hh]
          rcases h.cur with ⟨y, rest, hc, hx, hr⟩ | hc | ⟨hc1, hc2, hc3⟩
          · refine .inl ⟨y, rest ++ [x], by simp [hc], hx, ?_⟩
            intro z hz
            simp only [List.mem_append, List.mem_singleton] at hz
            rcases hz with hz | rfl
            · exact hr z hz
            · exact hnl
          · refine .inr (.inl ?_)
            intro y hy
            simp only [Pages.lines, List.mem_append, List.mem_singleton] at hy
            rcases hy with hy | hy | rfl
            · exact hc y (by simp [Pages.lines, hy])
            · exact hc y (by simp [Pages.lines, hy])
            · exact hnl
          · exfalso
            rw [shown_ign hh hc2] at ho; cases ho
        · refine .inl ⟨x, [], by rw [hb'']; simp [(g6 hh).1], by rw [a1, hh], by simp⟩
    · rw [if_neg hlt] at a3
      obtain ⟨a3, a4⟩ := a3
      have hb'' : b' = { b0 with cur := b0.cur ++ [markerLine], full := true,
                                 extra := if x.isLabel then [(x.label, 5001)] else [] } := by
        rw [hb']; exact if_neg (by rw [← g1]; exact hlt)
      right
      refine ⟨by rw [hb''], a4, by rw [a3, g1, hb'']; simp [Pages.lines], ?_⟩
      have hlen : (p.keep k.begins).lines.length = 5000 := by omega
      rw [a2, a3, hlen, labelTable_append, ← g2, hb'']
      simp [labelTable, markerLine]

theorem decodeLines_ok (ls : List Str) (hls : ∀ l ∈ ls, (10 : Byte) ∉ l) {b : Pages} (h : CPagesAt c b p) :
    CPagesEnd (decodeLines (theReading L) (leftOut p.filter.plt) p.filter.libraryFunctions c b ls)
      ((unlines ls).foldl (OParser.feed L) p) := by
  induction ls generalizing c p b with
  | nil => exact h.end
  | cons l ls ih =>
    have er : unlines (l :: ls) = (l ++ [10]) ++ unlines ls := by simp [unlines]
    have hcr : (l ++ [10]).foldl (OParser.feed L) p = (l.filter (· != 13) ++ [10]).foldl (OParser.feed L) p := by
      rw [← foldl_cr L (l ++ [10]) p, List.filter_append]; rfl
    rw [er, List.foldl_append, hcr, decodeLines]
    have hs := decodeLines_step (L := L) (l := l.filter (· != 13))
      (fun hm => hls l (by simp) (List.mem_filter.1 hm).1) (fun hm => by have := (List.mem_filter.1 hm).2; simp at this) h
    have hf := feed_keeps_filter (L := L) (p := p) (l.filter (· != 13) ++ [10])
    dsimp only at hs ⊢
    generalize (l.filter (· != 13) ++ [10]).foldl (OParser.feed L) p = q at *
    rcases hs with ⟨_, hs⟩ | ⟨hs1, hs2, hs3⟩
    · have := ih (fun x hx => hls x (by simp [hx])) hs
      rw [hf] at this
      exact this
    · rw [foldl_stop hs2, decodeLines_full hs1]
      exact hs3

theorem CPagesAt.start (f : Filter) : CPagesAt {} {} (start f) := by
  refine ⟨⟨Boundary.start f, rfl, rfl, rfl, rfl, rfl, rfl⟩, rfl, rfl, by simp [AsmParser.start], rfl, rfl, ?_, ?_⟩
  · intro _ A B n i m j h
    simp [AsmParser.start] at h
  · exact .inr (.inl (by simp [Pages.lines]))

end AsmParser
