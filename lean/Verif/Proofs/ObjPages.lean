/-
Helper lemmas: listings of any size, with any filter (`Verif/Spec/Pages.lean`).
-/
import Verif.Proofs.ObjListing
import Verif.Proofs.ObjLibrary
import Verif.Spec.Pages

namespace AsmParser

variable {L : Locale} {c : Ctx} {p : OParser}

/-! ### One line, whatever has been output before -/

/-- The parser without its output, and without the filter for library functions. -/
def OParser.bare (p : OParser) : OParser :=
  { p with lines := [], labels := [], filter := { p.filter with libraryFunctions := false } }

theorem eol_header (hl : p.st.inLabel = true) (htx : p.st.text ≠ []) (hm : Modes p.st) (ht : p.labels = labelTable 1 p.lines) :
    (p.bare.eol.lines = [] → p.eol.st = p.bare.eol.st ∧ p.eol.lines = p.prune.lines ∧ p.eol.labels = p.prune.labels) ∧
    ∀ l, p.bare.eol.lines = [l] → l.isLabel = true ∧ p.eol.labels = p.prune.labels ++ [(l.label, p.prune.lines.length + 1)] ∧
      if p.prune.lines.length < 5000 then p.eol.st = p.bare.eol.st ∧ p.eol.lines = p.prune.lines ++ [l]
      else p.eol.lines = p.prune.lines ++ [markerLine] ∧ p.eol.st.stopParsing = true ∧ p.eol.st.ub = p.bare.eol.st.ub := by
  have hns := (hm.lbl hl).2.2.2.2.1
  have hub := (prune_table ht).2
  have e1 : p.eol = (p.label.eolTail).setTot (p.totalLines + 1) := by rw [eol_eq, if_pos hl]
  have e2 : p.bare.eol = (p.bare.label.eolTail).setTot (p.totalLines + 1) := by rw [eol_eq, if_pos (by exact hl)]; rfl
  have hpo : p.bare.prune = p.bare := prune_off rfl
  cases hi : shouldIgnoreFunction (labelText p.st.text) p.filter
  · rw [e1, e2, label_kept htx hi, label_kept (p := p.bare) htx (by exact hi), hpo]
    simp only [OParser.eolTail, hns, OParser.setTot, OParser.bare, hub, Bool.false_eq_true, ↓reduceIte]
    have h1 : (labelText p.st.text ++ b! ":").isEmpty = false := by simp
    have h2 : ([] : List AsmLine).length < maxLines := by decide
    simp only [h1, Bool.not_false, ↓reduceIte, h2, List.nil_append]
    refine ⟨fun h => by simp at h, ?_⟩
    intro l hl
    simp only [List.cons.injEq, and_true] at hl
    subst hl
    by_cases hlt : p.prune.lines.length < maxLines
    · have hlt' : p.prune.lines.length < 5000 := hlt
      simp only [hlt, ↓reduceIte, hlt']
      simp [OState.finishLine]
    · have hlt' : ¬ p.prune.lines.length < 5000 := hlt
      simp only [hlt, ↓reduceIte, hlt']
      simp [OState.finishLine, OState.commonReset, markerLine, truncatedText]
  · rw [e1, e2, label_ignored htx hi, label_ignored (p := p.bare) htx (by exact hi), hpo]
    simp only [OParser.eolTail, OParser.setTot, OParser.bare, hub, ↓reduceIte]
    exact ⟨fun _ => ⟨trivial, trivial, trivial⟩, fun l hl => by simp at hl⟩

theorem eol_plain (hl : p.st.inLabel = true → p.st.text = []) (hm : Modes p.st) :
    (p.bare.eol.lines = [] → p.eol.st = p.bare.eol.st ∧ p.eol.lines = p.lines ∧ p.eol.labels = p.labels) ∧
    ∀ l, p.bare.eol.lines = [l] → l.isLabel = false ∧ p.eol.labels = p.labels ∧
      if p.lines.length < 5000 then p.eol.st = p.bare.eol.st ∧ p.eol.lines = p.lines ++ [l]
      else p.eol.lines = p.lines ++ [markerLine] ∧ p.eol.st.stopParsing = true ∧ p.eol.st.ub = p.bare.eol.st.ub := by
  have key : ∀ r : OParser, r.st = p.st → r.eol = (r.eolTail).setTot (r.totalLines + 1) := by
    intro r hr
    rw [eol_eq]
    split
    · rename_i h1
      have h2 : r.st.text = [] := by rw [hr] at h1 ⊢; exact hl h1
      rw [label_nil h2]
      unfold OParser.eolTail OParser.setTot
      dsimp only
      simp only [h2]
      split
      · rfl
      split
      · simp [updateSourceRef_eq, srcUpd, srcUb, h2, OState.commonReset]
      · rfl
    · rfl
  rw [key p rfl, key p.bare rfl]
  simp only [OParser.eolTail, OParser.setTot, OParser.bare]
  by_cases h1 : p.st.ignoreUntilNextLabel = true
  · simp only [h1, ↓reduceIte]
    exact ⟨fun _ => ⟨trivial, trivial, trivial⟩, fun l hl => by simp at hl⟩
  simp only [h1, Bool.false_eq_true, ↓reduceIte]
  by_cases h2 : p.st.inSourceRefLineNumber = true
  · simp only [h2, ↓reduceIte]
    exact ⟨fun _ => ⟨trivial, trivial, trivial⟩, fun l hl => by simp at hl⟩
  simp only [h2, Bool.false_eq_true, ↓reduceIte]
  by_cases h3 : p.st.text = []
  · simp only [h3, List.isEmpty_nil, Bool.not_true, Bool.false_eq_true, ↓reduceIte]
    exact ⟨fun _ => ⟨trivial, trivial, trivial⟩, fun l hl => by simp at hl⟩
  have h3' : p.st.text.isEmpty = false := by simpa using h3
  have h4 : ([] : List AsmLine).length < maxLines := by decide
  simp only [h3', Bool.not_false, ↓reduceIte, h4, List.nil_append]
  refine ⟨fun h => by simp at h, ?_⟩
  intro l hl
  simp only [List.cons.injEq, and_true] at hl
  subst hl
  refine ⟨by simp [OState.finishLine, hm.notLabel], ?_⟩
  by_cases hlt : p.lines.length < maxLines
  · have hlt' : p.lines.length < 5000 := hlt
    simp only [hlt, ↓reduceIte, hlt']
    simp
  · have hlt' : ¬ p.lines.length < 5000 := hlt
    simp only [hlt, ↓reduceIte, hlt']
    simp [OState.commonReset, markerLine, truncatedText]

theorem read_lib (b : Bool) (f : Filter) (s : OState) (w : Str) :
    s.read L { f with libraryFunctions := b } w = s.read L f w := by
  unfold OState.read
  simp only [step_congr]

theorem read_modes {f : Filter} {s : OState} (h : Modes s) (w : Str) : Modes (s.read L f w) := by
  induction w generalizing s with
  | nil => exact h
  | cons ch w ih =>
    rw [read_cons]
    refine ih ?_
    simp only [OState.read, List.foldl_cons, List.foldl_nil]
    split
    · exact h
    · exact Modes.step h

theorem Ctx.out_le (plt : Bool) (c : Ctx) (i : Item) : (c.out plt i).length ≤ 1 := by
  cases i <;> simp only [Ctx.out, Ctx.emit] <;> split <;> simp

/-- What stays of the output when the line is read. -/
def Item.before (i : Item) (p : OParser) : OParser :=
  if i.isHeader then p.prune else p

theorem line_any (hL : L.Ascii) (i : Item) (hat : At c p.st) (hwf : i.Wf c.ign) (ht : p.labels = labelTable 1 p.lines) :
    let q := (i.render ++ [10]).foldl (OParser.feed L) p
    let b := i.before p
    (c.out p.filter.plt i = [] → At (c.after p.filter.plt i) q.st ∧ q.lines = b.lines ∧ q.labels = b.labels) ∧
    ∀ l, c.out p.filter.plt i = [l] → l.isLabel = i.isHeader ∧
      q.labels = b.labels ++ (if l.isLabel then [(l.label, b.lines.length + 1)] else []) ∧
      if b.lines.length < 5000 then At (c.after p.filter.plt i) q.st ∧ q.lines = b.lines ++ [l]
      else q.lines = b.lines ++ [markerLine] ∧ q.st.stopParsing = true ∧ q.st.ub = false := by
  have hok := item_ok (p := p.bare) hL i hat hwf rfl (by
    have := c.out_le p.filter.plt i
    show 0 + (c.out p.filter.plt i).length ≤ 5000
    omega)
  intro q b
  have e : q = ({ p with st := p.st.read L p.filter i.render } : OParser).eol := feed_readline (Item.oneLine hwf) p hat.stop
  have e0 : (i.render ++ [10]).foldl (OParser.feed L) p.bare = ({ p with st := p.st.read L p.filter i.render } : OParser).bare.eol := by
    rw [feed_readline (Item.oneLine hwf) p.bare hat.stop]
    simp only [OParser.bare, read_lib]
  simp only [e0] at hok
  obtain ⟨⟨h1, h2⟩, h3⟩ := hok
  have h3 : i.Ends (p.st.read L p.filter i.render) := by
    have : p.bare.st.read L p.bare.filter i.render = p.st.read L p.filter i.render := read_lib ..
    rw [this] at h3; exact h3
  have h2 : ({ p with st := p.st.read L p.filter i.render } : OParser).bare.eol.lines = c.out p.filter.plt i := h2
  have h1 : At (c.after p.filter.plt i) ({ p with st := p.st.read L p.filter i.render } : OParser).bare.eol.st := h1
  have hm : Modes (p.st.read L p.filter i.render) := read_modes hat.b.modes _
  cases hh : i.isHeader
  · have hb : b = p := by simp [b, Item.before, hh]
    have hn : (p.st.read L p.filter i.render).inLabel = true → (p.st.read L p.filter i.render).text = [] := by
      cases i <;> first | exact h3 | cases hh
    have hp := eol_plain (p := { p with st := p.st.read L p.filter i.render }) hn hm
    rw [← e, h2] at hp
    rw [hb]
    refine ⟨fun h => ?_, fun l h => ?_⟩
    · have := hp.1 h
      exact ⟨by rw [this.1]; exact h1, this.2⟩
    · obtain ⟨g1, g2, g3⟩ := hp.2 l h
      refine ⟨g1, by rw [g2, g1]; simp, ?_⟩
      dsimp only at g3
      split
      · rename_i hlt
        rw [if_pos hlt] at g3
        exact ⟨by rw [g3.1]; exact h1, g3.2⟩
      · rename_i hlt
        rw [if_neg hlt] at g3
        exact ⟨g3.1, g3.2.1, by rw [g3.2.2]; exact h1.ub⟩
  · obtain ⟨a, n, rfl⟩ : ∃ a n, i = .header a n := by cases i <;> first | exact ⟨_, _, rfl⟩ | cases hh
    have hb : b = p.prune := rfl
    have hpr : ∀ s : OState, ({ p with st := s } : OParser).prune.lines = p.prune.lines ∧
        ({ p with st := s } : OParser).prune.labels = p.prune.labels := by
      intro s
      unfold OParser.prune OParser.maybeRemoveLastFunction
      dsimp only
      split
      · cases p.labels.getLast? with
        | none => exact ⟨rfl, rfl⟩
        | some x => dsimp only; split <;> exact ⟨rfl, rfl⟩
      · exact ⟨rfl, rfl⟩
    have hp := eol_header (p := { p with st := p.st.read L p.filter (Item.header a n).render }) h3.1 h3.2.1 hm ht
    rw [← e, h2, (hpr _).1, (hpr _).2] at hp
    rw [hb]
    refine ⟨fun h => ?_, fun l h => ?_⟩
    · have := hp.1 h
      exact ⟨by rw [this.1]; exact h1, this.2⟩
    · obtain ⟨g1, g2, g3⟩ := hp.2 l h
      refine ⟨g1, by rw [g2, g1]; simp, ?_⟩
      split
      · rename_i hlt
        rw [if_pos hlt] at g3
        exact ⟨by rw [g3.1]; exact h1, g3.2⟩
      · rename_i hlt
        rw [if_neg hlt] at g3
        exact ⟨g3.1, g3.2.1, by rw [g3.2.2]; exact h1.ub⟩

/-! ### All lines -/

/-- The output of the parser is the one of the specification. -/
structure PagesAt (c : Ctx) (b : Pages) (p : OParser) : Prop where
  at_ : At c p.st
  lines : p.lines = b.lines
  table : p.labels = labelTable 1 p.lines
  cap : p.lines.length ≤ 5000
  notFull : b.full = false
  noExtra : b.extra = []
  enclosed : p.filter.libraryFunctions = true → Enclosed p.lines p.labels
  /-- the current function has one label line, or there is no label line yet, or the function is left out -/
  cur : (∃ l rest, b.cur = l :: rest ∧ l.isLabel = true ∧ ∀ x ∈ rest, x.isLabel = false) ∨
    (∀ x ∈ b.lines, x.isLabel = false) ∨
    (b.cur = [] ∧ c.ign = true ∧ (p.filter.libraryFunctions = true → LastUser p))

theorem labelTable_none {n : Nat} {ls : List AsmLine} (h : ∀ x ∈ ls, x.isLabel = false) : labelTable n ls = [] := by
  induction ls generalizing n with
  | nil => rfl
  | cons l ls ih =>
    simp only [List.mem_cons, forall_eq_or_imp] at h
    simp [labelTable, h.1, ih h.2]

/-- Closing a function. -/
theorem PagesAt.close {b : Pages} (h : PagesAt c b p) :
    p.prune.lines = (b.close p.filter.libraryFunctions).done ∧ (b.close p.filter.libraryFunctions).cur = [] ∧
    p.prune.labels = labelTable 1 p.prune.lines ∧ (b.close p.filter.libraryFunctions).full = false ∧
    (b.close p.filter.libraryFunctions).extra = [] ∧
    (p.filter.libraryFunctions = true → Enclosed p.prune.lines p.prune.labels ∧ LastUser p.prune) := by
  have hfull : (b.close p.filter.libraryFunctions).full = false := by
    unfold Pages.close; split <;> exact h.notFull
  have hext : (b.close p.filter.libraryFunctions).extra = [] := by
    unfold Pages.close; split <;> exact h.noExtra
  have hcur : (b.close p.filter.libraryFunctions).cur = [] := by
    unfold Pages.close; split <;> rfl
  refine ⟨?_, hcur, (prune_table h.table).1, hfull, hext, fun hl => prune_enclosed hl h.table (h.enclosed hl)⟩
  cases hlib : p.filter.libraryFunctions
  · rw [prune_off hlib, h.lines]; simp [Pages.close, Pages.lines]
  · rcases h.cur with ⟨l, rest, hc, hl, hr⟩ | hc | ⟨hc, _, hu⟩
    · have hlab : p.labels = labelTable 1 b.done ++ [(l.label, b.done.length + 1)] := by
        rw [h.table, h.lines, Pages.lines, labelTable_append, hc]
        simp [labelTable, hl, labelTable_none hr, Nat.add_comm]
      unfold OParser.prune OParser.maybeRemoveLastFunction Pages.close
      have hst : startsFunction b.cur = true := by simp [startsFunction, hc, hl]
      have hd : p.lines.drop (b.done.length + 1 - 1) = b.cur := by rw [h.lines, Pages.lines]; simp
      have hk : p.lines.take (b.done.length + 1 - 1) = b.done := by rw [h.lines, Pages.lines]; simp
      simp only [hlib, ↓reduceIte, hlab, List.getLast?_concat, hd, hst, Bool.and_self, Bool.true_and, hasUserLine, Bool.not_eq_true']
      cases hu : b.cur.any (fun l => l.source.isUsercode)
      · simpa using hk
      · simp [h.lines, Pages.lines]
    · have hlab : p.labels = [] := by rw [h.table, h.lines]; exact labelTable_none hc
      have hst : startsFunction b.cur = false := by
        unfold startsFunction
        cases hcc : b.cur with
        | nil => rfl
        | cons x xs => exact hc x (by simp [Pages.lines, hcc])
      unfold OParser.prune OParser.maybeRemoveLastFunction Pages.close
      simp [hlib, hlab, hst, h.lines, Pages.lines]
    · have hp : p.prune = p := by
        unfold OParser.prune OParser.maybeRemoveLastFunction
        simp only [hlib, ↓reduceIte]
        cases hg : p.labels.getLast? with
        | none => rfl
        | some x =>
          obtain ⟨T, hT⟩ := List.getLast?_eq_some_iff.1 hg
          obtain ⟨y, hy, hy'⟩ := hu hlib T x.1 x.2 hT
          have : (p.lines.drop (x.2 - 1)).any (fun l => l.source.isUsercode) = true := List.any_eq_true.2 ⟨y, hy, hy'⟩
          simp only [this, ↓reduceIte]
      rw [hp, h.lines]
      unfold Pages.close
      have hst : startsFunction b.cur = false := by rw [hc]; rfl
      simp [hst, Pages.lines]

/-- Result of the parser, full or not. -/
def PagesEnd (b : Pages) (p : OParser) : Prop :=
  p.lines = b.lines ∧ p.labels = labelTable 1 p.lines ++ b.extra ∧ p.st.ub = false

theorem PagesAt.end {b : Pages} (h : PagesAt c b p) : PagesEnd b p :=
  ⟨h.lines, by rw [h.table, h.noExtra, List.append_nil], h.at_.ub⟩

theorem pages_full {lib plt : Bool} {b : Pages} (h : b.full = true) (is : List Item) : pages lib plt c b is = b := by
  induction is generalizing c with
  | nil => rfl
  | cons i is ih => simp only [pages, Pages.step, h, ↓reduceIte, ih]

theorem pages_step (hL : L.Ascii) {b : Pages} (i : Item) (h : PagesAt c b p) (hwf : i.Wf c.ign) :
    let q := (i.render ++ [10]).foldl (OParser.feed L) p
    let b' := b.step p.filter.libraryFunctions p.filter.plt c i
    (b'.full = false ∧ PagesAt (c.after p.filter.plt i) b' q) ∨ (b'.full = true ∧ q.st.stopParsing = true ∧ PagesEnd b' q) := by
  have hla := line_any hL i h.at_ hwf h.table
  have hf := feed_keeps_filter (L := L) (p := p) (i.render ++ [10])
  intro q b'
  have eq : (i.render ++ [10]).foldl (OParser.feed L) p = q := rfl
  rw [eq] at hf
  simp only [eq] at hla
  clear_value q
  have hB : ∃ b0 : Pages, b0 = (if i.isHeader then b.close p.filter.libraryFunctions else b) ∧ (i.before p).lines = b0.lines ∧
      (i.before p).labels = labelTable 1 (i.before p).lines ∧ b0.full = false ∧ b0.extra = [] ∧
      (p.filter.libraryFunctions = true → Enclosed (i.before p).lines (i.before p).labels) ∧
      (i.isHeader = true → b0.cur = [] ∧ (p.filter.libraryFunctions = true → LastUser (i.before p))) := by
    refine ⟨_, rfl, ?_⟩
    cases hh : i.isHeader
    · simp only [Item.before, hh, Bool.false_eq_true, ↓reduceIte, false_imp_iff, and_true]
      exact ⟨h.lines, h.table, h.notFull, h.noExtra, h.enclosed⟩
    · obtain ⟨g1, g2, g3, g4, g5, g6⟩ := h.close
      simp only [Item.before, hh, ↓reduceIte]
      exact ⟨by rw [g1, Pages.lines, g2, List.append_nil], g3, g4, g5, fun hl => (g6 hl).1, fun _ => ⟨g2, fun hl => (g6 hl).2⟩⟩
  obtain ⟨b0, e0, g1, g2, g3, g4, g5, g6⟩ := hB
  have hb' : b' = match c.out p.filter.plt i with | [] => b0 | l :: _ => b0.add l := by
    simp only [b', Pages.step, h.notFull, Bool.false_eq_true, ↓reduceIte, ← e0]
    cases c.out p.filter.plt i <;> rfl
  have hle := c.out_le p.filter.plt i
  have hq : q.filter = p.filter := hf
  obtain ⟨l1, l2⟩ := hla
  have hcap : (i.before p).lines.length ≤ 5000 := by
    have := h.cap
    have := prune_lines_le p
    unfold Item.before
    split <;> omega
  have e00 : i.isHeader = false → b0 = b := fun hh => by rw [e0, hh]; rfl
  have eB : i.isHeader = false → i.before p = p := fun hh => by simp [Item.before, hh]
  match ho : c.out p.filter.plt i with
  | [] =>
    rw [ho] at hb'
    obtain ⟨a1, a2, a3⟩ := l1 ho
    left
    rw [hb']
    refine ⟨g3, a1, by rw [a2, g1], by rw [a2, a3, g2], by rw [a2]; exact hcap, g3, g4, fun hl => by rw [a2, a3]; exact g5 (by rw [← hq]; exact hl), ?_⟩
    cases hh : i.isHeader
    · rw [e00 hh] at g1 ⊢
      rcases h.cur with hc | hc | ⟨hc1, hc2, hc3⟩
      · exact .inl hc
      · exact .inr (.inl hc)
      · refine .inr (.inr ⟨hc1, ?_, ?_⟩)
        · rw [← hc2]; cases i <;> first | rfl | cases hh
        · intro hl T n k e
          rw [a3, eB hh] at e
          rw [a2, eB hh]
          exact hc3 (by rw [← hq]; exact hl) T n k e
    · obtain ⟨k1, k2⟩ := g6 hh
      refine .inr (.inr ⟨k1, ?_, ?_⟩)
      · obtain ⟨a, n, rfl⟩ : ∃ a n, i = .header a n := by cases i <;> first | exact ⟨_, _, rfl⟩ | cases hh
        simp only [Ctx.out] at ho
        simp only [Ctx.after]
        split at ho
        · assumption
        · cases ho
      · intro hl T n k e
        rw [a3] at e
        rw [a2]
        exact k2 (by rw [← hq]; exact hl) T n k e
  | [l] =>
    rw [ho] at hb'
    obtain ⟨a1, a2, a3⟩ := l2 l ho
    by_cases hlt : (i.before p).lines.length < 5000
    · rw [if_pos hlt] at a3
      obtain ⟨a3, a4⟩ := a3
      have hb'' : b' = { b0 with cur := b0.cur ++ [l] } := by
        rw [hb']; exact if_pos (by rw [← g1]; exact hlt)
      have hln : q.lines = b'.lines := by rw [a4, g1, hb'']; simp [Pages.lines]
      have htab : q.labels = labelTable 1 q.lines := by
        rw [a2, a4, labelTable_append, ← g2]
        simp only [labelTable, Nat.add_comm]
      left
      refine ⟨by rw [hb'']; exact g3, a3, hln, htab, by rw [a4]; simp; omega, by rw [hb'']; exact g3, by rw [hb'']; exact g4, ?_, ?_⟩
      · intro hl
        rw [hq] at hl
        rw [a2, a4]
        cases hh : i.isHeader
        · rw [a1, hh]
          simp only [Bool.false_eq_true, ↓reduceIte, List.append_nil]
          exact (g5 hl).append
        · rw [a1, hh]
          exact (g5 hl).snoc ((g6 hh).2 hl) _ _
      · cases hh : i.isHeader
        · have hnl : l.isLabel = false := by rw [a1, hh]
          rw [hb'']
          rw [e00 hh]
          rcases h.cur with ⟨x, rest, hc, hx, hr⟩ | hc | ⟨hc1, hc2, hc3⟩
          · refine .inl ⟨x, rest ++ [l], by simp [hc], hx, ?_⟩
            intro y hy
            simp only [List.mem_append, List.mem_singleton] at hy
            rcases hy with hy | rfl
            · exact hr y hy
            · exact hnl
          · refine .inr (.inl ?_)
            intro y hy
            simp only [Pages.lines, List.mem_append, List.mem_singleton] at hy
            rcases hy with hy | hy | rfl
            · exact hc y (by simp [Pages.lines, hy])
            · exact hc y (by simp [Pages.lines, hy])
            · exact hnl
          · exfalso
            have : c.out p.filter.plt i = [] := by
              cases i <;> first | (simp [Ctx.out, hc2]; done) | cases hh
            rw [this] at ho; cases ho
        · refine .inl ⟨l, [], by rw [hb'']; simp [(g6 hh).1], by rw [a1, hh], by simp⟩
    · rw [if_neg hlt] at a3
      obtain ⟨a3, a4, a5⟩ := a3
      have hb'' : b' = { b0 with cur := b0.cur ++ [markerLine], full := true,
                                 extra := if l.isLabel then [(l.label, 5001)] else [] } := by
        rw [hb']; exact if_neg (by rw [← g1]; exact hlt)
      right
      refine ⟨by rw [hb''], a4, by rw [a3, g1, hb'']; simp [Pages.lines], ?_, a5⟩
      have hlen : (i.before p).lines.length = 5000 := by omega
      rw [a2, a3, hlen, labelTable_append, ← g2, hb'']
      simp [labelTable, markerLine]
  | _ :: _ :: _ => rw [ho] at hle; simp at hle

theorem pages_ok (hL : L.Ascii) (is : List Item) {b : Pages} (h : PagesAt c b p) (hwf : WfListing p.filter.plt c is) :
    PagesEnd (pages p.filter.libraryFunctions p.filter.plt c b is) ((renderListing is).foldl (OParser.feed L) p) := by
  induction is generalizing c p b with
  | nil => exact h.end
  | cons i is ih =>
    obtain ⟨h1, h2⟩ := hwf
    have er : renderListing (i :: is) = (i.render ++ [10]) ++ renderListing is := by
      simp [renderListing, unlines]
    rw [er, List.foldl_append, pages]
    have hs := pages_step hL i h h1
    have hf := feed_keeps_filter (L := L) (p := p) (i.render ++ [10])
    generalize (i.render ++ [10]).foldl (OParser.feed L) p = q at *
    rcases hs with ⟨_, hs⟩ | ⟨hs1, hs2, hs3⟩
    · have := ih hs (by rw [hf]; exact h2)
      rw [hf] at this
      exact this
    · rw [foldl_stop hs2, pages_full hs1]
      exact hs3

end AsmParser
