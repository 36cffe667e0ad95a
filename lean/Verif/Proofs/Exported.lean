/-
Helper lemmas: the filter for unused labels if all labels are exported.
-/
import Verif.Proofs.UsageMarks
import Verif.Proofs.UsageOrder

namespace AsmParser

attribute [local irreducible] Re.search Re.fullMatch

/-- An exported label is found in use if it has not been visited. -/
theorem markLine_exported {g : Usage} {o : Order} {n : Nat} {l : TLine} {v : List Str} {x : TLine × List Str} (hu : l.label ∈ g.usercode)
    (hv : l.label ∉ v) (h : markLine g o n l v = some x) : x = ({ l with isUsed := true }, l.label :: v) := by
  cases n with
  | zero => simp [markLine, isUsed] at h
  | succ n =>
    have : isUsed g o (n + 1) l.label 1 v = some (true, l.label :: v) := by
      rw [isUsed_eq, startVis_pos _ (by omega), if_neg (by simpa using hv), if_pos (by simpa using hu)]
    unfold markLine at h
    rw [this] at h
    simp only [Option.some.injEq] at h
    exact h.symm

/-- The line at a place stays marked. -/
theorem markLoop_keepsAt {o : Order} {n i : Nat} (names : List Str) {p p' : TParser} {v v' : List Str}
    (h : p.markLoop o n names v = some (p', v')) (hl : ∃ l, p.lines[i]? = some l ∧ l.isUsed = true) :
    ∃ l, p'.lines[i]? = some l ∧ l.isUsed = true := by
  induction names generalizing p v with
  | nil =>
    simp only [TParser.markLoop, Option.some.injEq, Prod.mk.injEq] at h
    rw [← h.1]; exact hl
  | cons a names ih =>
    unfold TParser.markLoop at h
    simp only at h
    split at h
    · exact ih (p := { p with ub := true }) h hl
    · rename_i line hline
      split at h
      · exact absurd h (by simp)
      · rename_i line' w hm
        refine ih (p := { p with lines := p.lines.set _ line' }) h ?_
        obtain ⟨l, h1, h2⟩ := hl
        by_cases e : (p.labelsDefined.lookup a).getD 0 - 1 = i
        · refine ⟨line', ?_, ?_⟩
          · rw [e]; exact List.getElem?_set_self (List.getElem?_eq_some_iff.1 h1).1
          · rw [e, h1] at hline
            cases hline
            exact (markLine_same hm).2.2.1 h2
        · exact ⟨l, by show (p.lines.set _ line')[i]? = _; rw [List.getElem?_set_ne e]; exact h1, h2⟩

/-- All labels are found in use. -/
theorem markLoop_exported {o : Order} {n : Nat} (names : List Str) {p p' : TParser} {v v' : List Str} (hp : Points p names)
    (hn : names.Nodup) (hu : ∀ a ∈ names, a ∈ p.usage.usercode) (hv : ∀ a ∈ names, a ∉ v)
    (h : p.markLoop o n names v = some (p', v')) :
    ∀ a ∈ names, ∃ l, p'.lines[(p.labelsDefined.lookup a).getD 0 - 1]? = some l ∧ l.isUsed = true := by
  induction names generalizing p v with
  | nil => intro a ha; exact absurd ha (by simp)
  | cons b names ih =>
    rw [List.nodup_cons] at hn
    obtain ⟨l, hl, hlab, hname⟩ := hp b (List.mem_cons_self ..)
    unfold TParser.markLoop at h
    simp only [hl] at h
    split at h
    · cases h
    · rename_i l' w hm
      obtain ⟨s1, s2, -, -, -⟩ := markLine_same hm
      have e := markLine_exported (by rw [hname]; exact hu b (List.mem_cons_self ..)) (by rw [hname]; exact hv b (List.mem_cons_self ..)) hm
      simp only [Prod.mk.injEq] at e
      have hp' : Points { p with lines := p.lines.set _ l' } names :=
        (show Points p names from fun x hx => hp x (List.mem_cons_of_mem _ hx)).set hl s1 s2
      intro a ha
      rcases List.mem_cons.1 ha with rfl | ha
      · refine markLoop_keepsAt names h ⟨l', ?_, by rw [e.1]⟩
        exact List.getElem?_set_self (List.getElem?_eq_some_iff.1 hl).1
      · refine ih (p := { p with lines := p.lines.set _ l' }) hp' hn.2 (fun x hx => hu x (List.mem_cons_of_mem _ hx)) ?_ h a ha
        intro x hx hw
        rw [e.2] at hw
        rcases List.mem_cons.1 hw with rfl | hw
        · rw [hname] at hx; exact hn.1 hx
        · exact hv x (List.mem_cons_of_mem _ hx) hw

/-- If all labels are used and there is no loose data, no line is removed. -/
theorem removeLoop_used_all (p : TParser) (r : RemState) (hr : r.remove = false) (ls : List TLine)
    (hl : ∀ l ∈ ls, l.isLabel = true → l.isUsed = true)
    (hd : (p.filter.compatmode && p.filter.directives) = false ∨ ∀ l ∈ ls, l.isData = true → l.source.insideProc = true) :
    (p.removeLoop r ls).1 = ls.map p.finishKept := by
  induction ls generalizing r with
  | nil => rfl
  | cons x ls ih =>
    rw [List.forall_mem_cons] at hl
    have hx : (remLabel p.filter p.usage r x).1.remove = false ∧ (remLabel p.filter p.usage r x).2 = false := by
      unfold remLabel
      cases hlab : x.isLabel with
      | false => exact ⟨hr, rfl⟩
      | true => cases hu : p.filter.unusedLabels <;> simp [hl.1 hlab, hr]
    have hdrop : remDrop p.filter (remLabel p.filter p.usage r x).1 (remLabel p.filter p.usage r x).2 x = false := by
      unfold remDrop
      rw [hx.1, hx.2]
      rcases hd with hd | hd
      · cases h1 : p.filter.compatmode <;> cases h2 : p.filter.directives <;> simp_all
      · have := hd x (List.mem_cons_self ..)
        cases h1 : x.isData with
        | false => simp
        | true => simp [this h1]
    unfold TParser.removeLoop
    simp only [hdrop, Bool.false_eq_true, if_false, List.map_cons]
    rw [ih _ hx.1 hl.2 (hd.imp_right fun hd l h => hd l (List.mem_cons_of_mem _ h))]

/-- The lines of the result if all labels are exported and no label is defined twice. -/
theorem result_exported {L : Locale} {f : Filter} {s : Str} {o : Order} {n : Nat} {v v' : List Str} {p : TParser}
    (h : (TParser.init f).fromStream L o n s v = some (p, v'))
    (hd : (f.compatmode && f.directives) = false ∨ ∀ l ∈ heldLines L f s, l.isData = true → l.source.insideProc = true)
    (hu : ∀ a ∈ ((TParser.init f).readStream L s).labelsDefined.map (·.1), a ∈ (references L f s).usercode ∧ a ∉ v)
    (hone : (heldLines L f s).Pairwise fun l m => l.isLabel = true → m.isLabel = true → l.label ≠ m.label) :
    p.lines.map TLine.noUse = (heldLines L f s).map fun l => ((TParser.init f).readStream L s).finishKept l.noUse := by
  obtain ⟨e0, -, hinv⟩ := textInv L f s
  have hflt : ((TParser.init f).readStream L s).filter = f := by
    obtain ⟨e, -, -, h, -⟩ := readStream_lines L f (fun _ _ => True) trivial (fun _ _ _ _ _ _ _ _ => trivial) s
    exact h
  unfold TParser.fromStream at h
  split at h
  · cases h
  rename_i q w hq
  simp only [Option.some.injEq, Prod.mk.injEq] at h
  obtain ⟨rfl, rfl⟩ := h
  have hloop := hq
  obtain ⟨ls, ub, rfl, hls⟩ := markLabelUsage_frame hq
  unfold TParser.markLabelUsage at hloop
  have hperm := o.perm .labels (((TParser.init f).readStream L s).labelsDefined.map (·.1))
  have hmark := markLoop_exported (p := ((TParser.init f).readStream L s).filterNonLabels) _
    (fun a ha => points_read L f s a (hperm.mem_iff.1 ha)) (hperm.nodup_iff.2 hinv.table.nodup)
    (fun a ha => (hu a (hperm.mem_iff.1 ha)).1) (fun a ha => (hu a (hperm.mem_iff.1 ha)).2) hloop
  have hls : ls.map TLine.noUse = (heldLines L f s).map TLine.noUse := hls
  have at_ : ∀ {i : Nat} {l : TLine}, ls[i]? = some l → ∃ l0, (heldLines L f s)[i]? = some l0 ∧ l.noUse = l0.noUse := by
    intro i l hi
    have := congrArg (fun x => x[i]?) hls
    simp only [List.getElem?_map, hi, Option.map_some] at this
    obtain ⟨l0, h1, h2⟩ := Option.map_eq_some_iff.1 this.symm
    exact ⟨l0, h1, h2.symm⟩
  have hused : ∀ l ∈ ls, l.isLabel = true → l.isUsed = true := by
    intro l hl hlab
    obtain ⟨i, hi⟩ := List.mem_iff_getElem?.1 hl
    obtain ⟨l0, hi0, e⟩ := at_ hi
    have e1 : l.isLabel = l0.isLabel := (congrArg TLine.isLabel e :)
    have e2 : l.label = l0.label := (congrArg TLine.label e :)
    have hkey := defined_key (List.mem_of_getElem? hi0) (e1 ▸ hlab)
    obtain ⟨m, hm, hmu⟩ := hmark l0.label (hperm.mem_iff.2 hkey)
    obtain ⟨m0, hm0, hm1, hm2⟩ := points_read L f s _ hkey
    have hidx : i = (((TParser.init f).readStream L s).labelsDefined.lookup l0.label).getD 0 - 1 := by
      rw [List.pairwise_iff_getElem] at hone
      obtain ⟨hi1, hi2⟩ := List.getElem?_eq_some_iff.1 hi0
      obtain ⟨hj1, hj2⟩ := List.getElem?_eq_some_iff.1 (show (heldLines L f s)[_]? = some m0 from hm0)
      rcases Nat.lt_trichotomy i ((((TParser.init f).readStream L s).labelsDefined.lookup l0.label).getD 0 - 1) with h | h | h
      · exact absurd (by rw [hi2, hj2, hm2]) (hone _ _ hi1 hj1 h (by rw [hi2, ← e1]; exact hlab) (by rw [hj2]; exact hm1))
      · exact h
      · exact absurd (by rw [hi2, hj2, hm2]) (hone _ _ hj1 hi1 h (by rw [hj2]; exact hm1) (by rw [hi2, ← e1]; exact hlab))
    rw [hidx] at hi
    have hm : ls[(((TParser.init f).readStream L s).labelsDefined.lookup l0.label).getD 0 - 1]? = some m := hm
    rw [hi] at hm
    cases hm
    exact hmu
  have hrem := removeLoop_used_all ({ ((TParser.init f).readStream L s).filterNonLabels with lines := ls, ub := ub }) {} rfl ls hused (by
    show (((TParser.init f).readStream L s).filter.compatmode && ((TParser.init f).readStream L s).filter.directives) = false ∨ _
    rw [hflt]
    refine hd.imp_right fun hd l hl hdata => ?_
    obtain ⟨i, hi⟩ := List.mem_iff_getElem?.1 hl
    obtain ⟨l0, hi0, e⟩ := at_ hi
    have e1 : l.isData = l0.isData := (congrArg TLine.isData e :)
    have e2 : l.source = l0.source := (congrArg TLine.source e :)
    rw [e2]
    exact hd l0 (List.mem_of_getElem? hi0) (e1 ▸ hdata))
  show ((TParser.removeLoop _ {} ls).1).map TLine.noUse = _
  rw [hrem, List.map_map]
  have e : (heldLines L f s).map (fun l => ((TParser.init f).readStream L s).finishKept l.noUse) =
      ((heldLines L f s).map TLine.noUse).map ((TParser.init f).readStream L s).finishKept := by rw [List.map_map]; rfl
  rw [e, ← hls, List.map_map]
  exact List.map_congr_left fun l _ => finishKept_noUse _ l

end AsmParser
