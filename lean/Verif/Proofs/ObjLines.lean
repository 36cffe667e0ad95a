/-
Helper lemmas: line list and label table of the objdump parser.
-/
import Verif.Proofs.ObjModes

namespace AsmParser

/-! ### The label table -/

theorem labelTable_append (n : Nat) (a b : List AsmLine) :
    labelTable n (a ++ b) = labelTable n a ++ labelTable (n + a.length) b := by
  induction a generalizing n with
  | nil => simp [labelTable]
  | cons l ls ih =>
    simp only [List.cons_append, labelTable, ih, List.length_cons]
    have : n + 1 + ls.length = n + (ls.length + 1) := by omega
    split <;> simp [this]

theorem labelTable_mem {n : Nat} {ls : List AsmLine} {name : Str} {i : Nat}
    (h : (name, i) ∈ labelTable n ls) :
    n ≤ i ∧ ∃ l, ls[i - n]? = some l ∧ l.isLabel = true ∧ l.label = name := by
  induction ls generalizing n with
  | nil => simp [labelTable] at h
  | cons l ls ih =>
    have tail : (name, i) ∈ labelTable (n + 1) ls →
        n ≤ i ∧ ∃ l', (l :: ls)[i - n]? = some l' ∧ l'.isLabel = true ∧ l'.label = name := by
      intro h
      obtain ⟨h1, l', h2, h3⟩ := ih h
      refine ⟨by omega, l', ?_, h3⟩
      have : i - n = (i - (n + 1)) + 1 := by omega
      rw [this, List.getElem?_cons_succ]; exact h2
    unfold labelTable at h
    split at h
    · rename_i hl
      rcases List.mem_cons.1 h with h | h
      · cases h; exact ⟨Nat.le_refl _, l, by simp, hl, rfl⟩
      · exact tail h
    · exact tail h

theorem labelTable_lt {n : Nat} {ls : List AsmLine} {name : Str} {i : Nat}
    (h : (name, i) ∈ labelTable n ls) : n ≤ i ∧ i < n + ls.length := by
  obtain ⟨h1, l, h2, -⟩ := labelTable_mem h
  have := (List.getElem?_eq_some_iff.1 h2).1
  omega

theorem labelTable_pairwise (n : Nat) (ls : List AsmLine) :
    (labelTable n ls).Pairwise (fun a b => a.2 < b.2) := by
  induction ls generalizing n with
  | nil => simp [labelTable]
  | cons l ls ih =>
    unfold labelTable
    split
    · refine List.Pairwise.cons ?_ (ih _)
      intro d hd
      have := (labelTable_lt (name := d.1) (i := d.2) hd).1
      simp only; omega
    · exact ih _

/-- The table of the lines before the last label. -/
theorem labelTable_take {k : Nat} {ls : List AsmLine} {T : List (Str × Nat)} {n : Str} {i : Nat}
    (h : labelTable k ls = T ++ [(n, i)]) : labelTable k (ls.take (i - k)) = T := by
  induction ls generalizing k T with
  | nil => simp [labelTable] at h
  | cons l ls ih =>
    unfold labelTable at h
    split at h
    · rename_i hl
      cases T with
      | nil =>
        simp only [List.nil_append, List.cons.injEq, Prod.mk.injEq] at h
        simp [← h.1.2, labelTable]
      | cons t T =>
        simp only [List.cons_append, List.cons.injEq] at h
        have hi := labelTable_lt (name := n) (i := i) (n := k + 1) (ls := ls) (by rw [h.2]; simp)
        have e : i - k = (i - (k + 1)) + 1 := by omega
        rw [e, List.take_succ_cons]
        unfold labelTable
        rw [if_pos hl, ih h.2, ← h.1]
    · rename_i hl
      have hi := labelTable_lt (name := n) (i := i) (n := k + 1) (ls := ls) (by rw [h]; simp)
      have e : i - k = (i - (k + 1)) + 1 := by omega
      rw [e, List.take_succ_cons]
      unfold labelTable
      rw [if_neg hl, ih h]

/-! ### Removal of the last function -/

theorem prune_cases {p : OParser} {P : OParser → Prop} (same : P p)
    (cut : ∀ T n i, p.filter.libraryFunctions = true → p.labels = T ++ [(n, i)] →
      (∀ l ∈ p.lines.drop (i - 1), l.source.isUsercode = false) →
      P { p with lines := p.lines.take (i - 1), labels := T,
                 st := { p.st with ub := p.st.ub || decide (p.lines.length < i - 1) } }) : P p.prune := by
  unfold OParser.prune OParser.maybeRemoveLastFunction
  split
  · rename_i hf
    cases hl : p.labels.getLast? with
    | none => exact same
    | some x =>
      dsimp only
      split
      · exact same
      · rename_i hu
        obtain ⟨T, hT⟩ := List.getLast?_eq_some_iff.1 hl
        have := cut T x.1 x.2 hf hT (by simpa using hu)
        simpa [hT] using this
  · exact same

theorem prune_lines_le (p : OParser) : p.prune.lines.length ≤ p.lines.length := by
  refine prune_cases (P := fun q => q.lines.length ≤ p.lines.length) (Nat.le_refl _) ?_
  intros; simp; omega

/-- The invariant on lines and labels. -/
structure Good (p : OParser) : Prop where
  cap : p.st.stopParsing = false → p.lines.length ≤ 5000
  marker : p.st.stopParsing = true → p.lines.length = 5001 ∧ p.lines.getLast? = some markerLine
  table : p.st.stopParsing = false → p.labels = labelTable 1 p.lines
  tableS : p.st.stopParsing = true → p.labels = labelTable 1 p.lines ∨
    ∃ n, p.labels = labelTable 1 p.lines ++ [(n, 5001)]
  text : ∀ l ∈ p.lines, l.isLabel = true → l.text = l.label ++ b! ":"
  count : p.lines.length ≤ p.totalLines

theorem prune_table {p : OParser} (h : p.labels = labelTable 1 p.lines) :
    p.prune.labels = labelTable 1 p.prune.lines ∧ p.prune.st.ub = p.st.ub := by
  refine prune_cases (P := fun q => q.labels = labelTable 1 q.lines ∧ q.st.ub = p.st.ub) ⟨h, rfl⟩ ?_
  intro T n i _ hT _
  have hi := labelTable_lt (name := n) (i := i) (n := 1) (ls := p.lines) (by rw [← h, hT]; simp)
  refine ⟨(labelTable_take (by rw [← h, hT])).symm, ?_⟩
  have : ¬ p.lines.length < i - 1 := by omega
  simp [this]

theorem prune_mem {p : OParser} {l : AsmLine} (h : l ∈ p.prune.lines) : l ∈ p.lines := by
  revert h
  refine prune_cases (P := fun q => l ∈ q.lines → l ∈ p.lines) id ?_
  intro T n i _ _ _ h
  exact List.mem_of_mem_take h

@[simp] theorem reset_stop (s : OState) : s.commonReset.stopParsing = s.stopParsing := rfl

theorem updateSourceRef_stop (s : OState) :
    s.updateSourceRefLineNumber.stopParsing = s.stopParsing := by rw [updateSourceRef_eq]

theorem prune_stop (p : OParser) : p.prune.st.stopParsing = p.st.stopParsing := by rw [prune_frame]
theorem prune_total (p : OParser) : p.prune.totalLines = p.totalLines := by rw [prune_frame]

theorem Good.eol {p : OParser} (hs : p.st.stopParsing = false) (hm : Modes p.st) (h : Good p) :
    Good p.eol := by
  have hc := h.cap hs
  have ht := h.table hs
  have pt := prune_table ht
  have pl := prune_lines_le p
  have pc := h.count
  have hlab := hm.notLabel
  refine eol_cases (P := Good) ?_ ?_ ?_ ?_ ?_ ?_ ?_ ?_
  · intro _ _
    exact ⟨fun _ => hc, fun h => by simp [hs] at h, fun _ => ht, fun h => by simp [hs] at h, h.text, by simp; omega⟩
  · intro _ _ _
    refine ⟨fun _ => hc, fun h => ?_, fun _ => ht, fun h => ?_, h.text, by simp; omega⟩ <;>
      simp [updateSourceRef_eq, hs] at h
  · intro _ _ _ hne hlt
    refine ⟨fun _ => ?_, fun h => by simp [hs] at h, fun _ => ?_, fun h => by simp [hs] at h, ?_, by simp; omega⟩
    · simp [maxLines] at hlt ⊢; omega
    · simp [labelTable_append, labelTable, OState.finishLine, hlab, ht]
    · intro l hl
      simp only [List.mem_append, List.mem_singleton] at hl
      rcases hl with hl | rfl
      · exact h.text l hl
      · simp [OState.finishLine, hlab]
  · intro _ _ _ hne hge
    simp only [maxLines] at hge
    refine ⟨fun h => by simp at h, fun _ => ⟨?_, by simp⟩, fun h => by simp at h, fun _ => .inl ?_, ?_, by simp; omega⟩
    · simp; omega
    · simp [labelTable_append, labelTable, markerLine, ht]
    · intro l hl
      simp only [List.mem_append, List.mem_singleton] at hl
      rcases hl with hl | rfl
      · exact h.text l hl
      · simp [markerLine]
  · intro _ _ _
    refine ⟨fun _ => ?_, fun h => by simp [hs] at h, fun _ => pt.1, fun h => by simp [hs] at h, ?_, ?_⟩
    · simp; omega
    · intro l hl; exact h.text l (prune_mem hl)
    · simp; omega
  · intro hl _ _ hsrc
    have := (hm.lbl hl).2.2.2.2.1
    rw [hsrc] at this; cases this
  · intro _ _ _ _ hlt
    refine ⟨fun _ => ?_, fun h => by simp [hs] at h, fun _ => ?_, fun h => by simp [hs] at h, ?_, by simp; omega⟩
    · simp [maxLines] at hlt ⊢; omega
    · simp [labelTable_append, labelTable, pt.1, Nat.add_comm]
    · intro l hl
      simp only [List.mem_append, List.mem_singleton] at hl
      rcases hl with hl | rfl
      · exact h.text l (prune_mem hl)
      · intro _; rfl
  · intro _ _ _ _ hge
    simp only [maxLines] at hge
    have e : p.prune.lines.length = 5000 := by omega
    refine ⟨fun h => by simp at h, fun _ => ⟨?_, by simp⟩, fun h => by simp at h, fun _ => .inr ⟨labelText p.st.text, ?_⟩, ?_, by simp; omega⟩
    · simp; omega
    · simp [labelTable_append, labelTable, markerLine, pt.1, e]
    · intro l hl
      simp only [List.mem_append, List.mem_singleton] at hl
      rcases hl with hl | rfl
      · exact h.text l (prune_mem hl)
      · simp [markerLine]

theorem Good.parse (L : Locale) (f : Filter) (s : Str) : Good (objParse L f s) := by
  refine objParse_induct' (P := Good) ?_ ?_ s
  · constructor <;> simp [start, labelTable]
  · intro p c hm _ h hs
    refine feed_cases (P := Good) hs h (fun _ => h.eol hs hm) (fun _ _ _ => ?_)
    have := step_stopParsing L p.filter p.st c
    exact ⟨fun h' => h.cap hs, fun h' => by simp_all, fun _ => h.table hs, fun h' => by simp_all, h.text, h.count⟩

/-! ### Counting input lines -/

theorem total_eol (p : OParser) : p.eol.totalLines = p.totalLines + 1 := by
  refine eol_cases (P := fun q => q.totalLines = p.totalLines + 1) ?_ ?_ ?_ ?_ ?_ ?_ ?_ ?_ <;> intros <;> rfl

theorem feed_total {L : Locale} {p : OParser} (c : Byte) (h : p.st.stopParsing = false) :
    (p.feed L c).totalLines = p.totalLines + newlines [c] := by
  by_cases hc : c = 10
  · subst hc; simp [OParser.feed, h, total_eol, newlines]
  · refine feed_cases (P := fun q => q.totalLines = p.totalLines + newlines [c]) h ?_ ?_ ?_
    · simp [newlines, hc]
    · intro h; exact absurd h hc
    · intros; simp [newlines, hc]

theorem snoc_induct {α : Type} {P : List α → Prop} (nil : P []) (snoc : ∀ s c, P s → P (s ++ [c]))
    (s : List α) : P s := by
  rw [← List.reverse_reverse s]
  induction s.reverse with
  | nil => exact nil
  | cons c cs ih => rw [List.reverse_cons]; exact snoc _ c ih

theorem total_parse (L : Locale) (f : Filter) (s : Str) :
    ∃ u v, s = u ++ v ∧ (objParse L f s).totalLines = newlines u ∧
      objParse L f s = objParse L f u ∧
      ((objParse L f s).st.stopParsing = false → v = []) := by
  induction s using snoc_induct with
  | nil => exact ⟨[], [], rfl, rfl, rfl, fun _ => rfl⟩
  | snoc s c ih =>
    obtain ⟨u, v, h1, h2, h3, h4⟩ := ih
    rw [objParse_append]
    by_cases hs : (objParse L f s).st.stopParsing = true
    · rw [foldl_stop hs]
      exact ⟨u, v ++ [c], by simp [h1], h2, h3, by simp [hs]⟩
    · have hs := Bool.eq_false_of_ne hs
      have hv := h4 hs
      subst hv
      simp only [List.append_nil] at h1
      subst h1
      refine ⟨s ++ [c], [], by simp, ?_, by rw [objParse_append], fun _ => rfl⟩
      simp only [List.foldl_cons, List.foldl_nil, feed_total c hs, h2]
      simp [newlines]

/-! ### Line boundaries -/

theorem eol_inAddress (p : OParser) : p.eol.st.inAddress = true := by
  refine eol_cases (P := fun q => q.st.inAddress = true) ?_ ?_ ?_ ?_ ?_ ?_ ?_ ?_ <;> intros <;> rfl

theorem boundary_inAddress (L : Locale) (p : OParser) (h : p.st.stopParsing = true → p.st.inAddress = true)
    (s : Str) : (((s ++ [10]).foldl (OParser.feed L) p).st.inAddress = true) ∧
      ∀ t : Str, (t.foldl (OParser.feed L) p).st.stopParsing = true →
        (t.foldl (OParser.feed L) p).st.inAddress = true := by
  have key : ∀ t : Str, (t.foldl (OParser.feed L) p).st.stopParsing = true →
      (t.foldl (OParser.feed L) p).st.inAddress = true := by
    intro t
    induction t generalizing p with
    | nil => exact h
    | cons c cs ih =>
      refine ih _ ?_
      by_cases hs : p.st.stopParsing = true
      · rw [feed_stop hs]; exact h
      · have hs := Bool.eq_false_of_ne hs
        refine feed_cases (P := fun q => q.st.stopParsing = true → q.st.inAddress = true) hs h
          (fun _ _ => eol_inAddress p) (fun _ _ _ h' => ?_)
        rw [step_stopParsing, hs] at h'; cases h'
  refine ⟨?_, key⟩
  rw [List.foldl_append]
  by_cases hs : (s.foldl (OParser.feed L) p).st.stopParsing = true
  · rw [foldl_stop hs]; exact key s hs
  · have hs := Bool.eq_false_of_ne hs
    simp [OParser.feed, hs, eol_inAddress]

/-- Change the line counter. -/
def OParser.setTot (p : OParser) (n : Nat) : OParser := { p with totalLines := n }

theorem prune_setTot (p : OParser) (n : Nat) : (p.setTot n).prune = p.prune.setTot n := by
  unfold OParser.prune OParser.maybeRemoveLastFunction OParser.setTot
  dsimp only
  split
  · cases p.labels.getLast? with
    | none => rfl
    | some x => dsimp only; split <;> rfl
  · rfl

theorem label_setTot (p : OParser) (m : Nat) : (p.setTot m).label = p.label.setTot m := by
  by_cases ht : p.st.text = []
  · rw [label_nil ht, label_nil (p := p.setTot m) ht]; rfl
  · cases hi : shouldIgnoreFunction (labelText p.st.text) p.filter
    · rw [label_kept ht hi, label_kept (p := p.setTot m) ht hi, prune_setTot]; rfl
    · rw [label_ignored ht hi, label_ignored (p := p.setTot m) ht hi, prune_setTot]; rfl

theorem eolTail_setTot (q : OParser) (n : Nat) : (q.setTot n).eolTail = q.eolTail.setTot n := by
  unfold OParser.eolTail OParser.setTot
  dsimp only
  split
  · rfl
  split
  · rfl
  split
  · split <;> rfl
  · rfl

theorem eol_eq (p : OParser) :
    p.eol = ((if p.st.inLabel then p.label else p).eolTail).setTot (p.totalLines + 1) := by
  have : p.eol = (if p.st.inLabel then (p.setTot (p.totalLines + 1)).label
    else p.setTot (p.totalLines + 1)).eolTail := rfl
  rw [this]
  split
  · rw [label_setTot, eolTail_setTot]
  · rw [eolTail_setTot]

theorem eol_setTot (p : OParser) (n : Nat) : (p.setTot n).eol = p.eol.setTot (n + 1) := by
  rw [eol_eq, eol_eq]
  have : (if (p.setTot n).st.inLabel then (p.setTot n).label else p.setTot n) =
      (if p.st.inLabel then p.label else p).setTot n := by
    rw [label_setTot]; unfold OParser.setTot; dsimp only; split <;> rfl
  rw [this, eolTail_setTot]; rfl

theorem feed_setTot (L : Locale) (c : Byte) (p : OParser) (n : Nat) :
    ∃ k, (p.setTot n).feed L c = (p.feed L c).setTot k := by
  unfold OParser.feed
  by_cases h1 : p.st.stopParsing = true
  · exact ⟨n, by simp [OParser.setTot, h1]⟩
  by_cases h2 : c = 13
  · exact ⟨n, by simp [OParser.setTot, h2]⟩
  by_cases h3 : c = 10
  · refine ⟨n + 1, ?_⟩
    have : (p.setTot n).st.stopParsing = p.st.stopParsing := rfl
    simp only [this, h1, h3, eol_setTot]; simp
  by_cases h4 : p.st.skipRestOfTheLine = true
  · exact ⟨n, by simp [OParser.setTot, h4, h3]⟩
  · exact ⟨n, by simp [OParser.setTot, h1, h2, h3, h4]⟩

theorem fold_setTot (L : Locale) (s : Str) (p : OParser) (n : Nat) :
    ∃ k, s.foldl (OParser.feed L) (p.setTot n) = (s.foldl (OParser.feed L) p).setTot k := by
  induction s generalizing p n with
  | nil => exact ⟨n, rfl⟩
  | cons c cs ih =>
    obtain ⟨m, hm⟩ := feed_setTot L c p n
    simp only [List.foldl_cons, hm]
    exact ih _ m

/-! ### Nothing happens before a newline -/

theorem fold_noeol {L : Locale} {t : Str} (h : (10 : Byte) ∉ t) (p : OParser) :
    (t.foldl (OParser.feed L) p).lines = p.lines ∧ (t.foldl (OParser.feed L) p).labels = p.labels ∧
    (t.foldl (OParser.feed L) p).totalLines = p.totalLines := by
  induction t generalizing p with
  | nil => exact ⟨rfl, rfl, rfl⟩
  | cons c cs ih =>
    simp only [List.mem_cons, not_or] at h
    obtain ⟨h1, h2, h3⟩ := ih h.2 (p.feed L c)
    have : (p.feed L c).lines = p.lines ∧ (p.feed L c).labels = p.labels ∧
        (p.feed L c).totalLines = p.totalLines := by
      by_cases hs : p.st.stopParsing = true
      · rw [feed_stop hs]; exact ⟨rfl, rfl, rfl⟩
      · refine feed_cases (P := fun q => q.lines = p.lines ∧ q.labels = p.labels ∧ q.totalLines = p.totalLines)
          (Bool.eq_false_of_ne hs) ⟨rfl, rfl, rfl⟩ (fun hc => absurd hc.symm h.1) (fun _ _ _ => ⟨rfl, rfl, rfl⟩)
    simp only [List.foldl_cons]
    exact ⟨h1.trans this.1, h2.trans this.2.1, h3.trans this.2.2⟩

/-! ### Appending only -/

theorem feed_filter (L : Locale) (p : OParser) (c : Byte) : (p.feed L c).filter = p.filter := by
  by_cases hs : p.st.stopParsing = true
  · rw [feed_stop hs]
  refine feed_cases (P := fun q => q.filter = p.filter) (Bool.eq_false_of_ne hs) rfl (fun _ => ?_) (fun _ _ _ => rfl)
  have hp : p.prune.filter = p.filter := by rw [prune_frame]
  refine eol_cases (P := fun q => q.filter = p.filter) ?_ ?_ ?_ ?_ ?_ ?_ ?_ ?_ <;> intros <;> first | rfl | exact hp

theorem feed_reproducible (L : Locale) (p : OParser) (c : Byte) : (p.feed L c).reproducible = p.reproducible := by
  by_cases hs : p.st.stopParsing = true
  · rw [feed_stop hs]
  refine feed_cases (P := fun q => q.reproducible = p.reproducible) (Bool.eq_false_of_ne hs) rfl (fun _ => ?_) (fun _ _ _ => rfl)
  have hp : p.prune.reproducible = p.reproducible := by rw [prune_frame]
  refine eol_cases (P := fun q => q.reproducible = p.reproducible) ?_ ?_ ?_ ?_ ?_ ?_ ?_ ?_ <;> intros <;> first | rfl | exact hp

theorem feed_prefix (L : Locale) (p : OParser) (c : Byte) (h : p.filter.libraryFunctions = false) :
    p.lines <+: (p.feed L c).lines ∧ p.labels <+: (p.feed L c).labels := by
  by_cases hs : p.st.stopParsing = true
  · rw [feed_stop hs]; exact ⟨List.prefix_refl _, List.prefix_refl _⟩
  refine feed_cases (P := fun q => p.lines <+: q.lines ∧ p.labels <+: q.labels) (Bool.eq_false_of_ne hs)
    ⟨List.prefix_refl _, List.prefix_refl _⟩ (fun _ => ?_) (fun _ _ _ => ⟨List.prefix_refl _, List.prefix_refl _⟩)
  have hp : p.prune = p := by simp [OParser.prune, h]
  refine eol_cases (P := fun q => p.lines <+: q.lines ∧ p.labels <+: q.labels) ?_ ?_ ?_ ?_ ?_ ?_ ?_ ?_ <;>
    intros <;> simp [hp]

theorem fold_prefix (L : Locale) (t : Str) (p : OParser) (h : p.filter.libraryFunctions = false) :
    p.lines <+: (t.foldl (OParser.feed L) p).lines ∧ p.labels <+: (t.foldl (OParser.feed L) p).labels := by
  induction t generalizing p with
  | nil => exact ⟨List.prefix_refl _, List.prefix_refl _⟩
  | cons c cs ih =>
    have h1 := feed_prefix L p c h
    have h2 := ih (p.feed L c) (by rw [feed_filter]; exact h)
    exact ⟨h1.1.trans h2.1, h1.2.trans h2.2⟩

theorem parse_filter (L : Locale) (f : Filter) (s : Str) : (objParse L f s).filter = f :=
  objParse_induct (P := fun p => p.filter = f) rfl (fun p c h _ => by rw [feed_filter]; exact h) s

end AsmParser
