/-
Property C103: what the filter for unused labels leaves of the assembly code that a compiler writes.
-/
import Verif.Proofs.CompiledCircle
import Verif.Proofs.CompiledLeft
import Verif.Proofs.Crlf
import Verif.Props.Compiled
import Verif.Props.Kept
import Verif.Props.OnlyRemoves

namespace AsmParser

attribute [local irreducible] Re.search Re.fullMatch

/-- What is read of the program. -/
theorem compiled_seen [Recognizers] {f : Filter} (hf : CompiledFilter f) {xs : List CLine} (hx : ∀ x ∈ xs, x.Wf) :
    ∃ ys : List CLine, seen f (unlines (xs.map CLine.render)) = ys.map CLine.seen ∧
      (scan f (unlines (xs.map CLine.render))).shown = (xs.filter CLine.shows).map CLine.text ∧ ys.Sublist xs ∧ CodeEq xs ys ∧
      ∀ x ∈ xs, occurs b! ".cfi_startproc" x.text = false → x ∈ ys := by
  have hf' : UsualFilter { f with unusedLabels := false } := ⟨hf.directives, hf.comments, rfl, hf.library, hf.whitespace⟩
  obtain ⟨ys, pl, e, sub, hys, hm⟩ := scan_items_more hf' xs hx false [] []
  have hlines : inputLines (unlines (xs.map CLine.render)) = xs.map CLine.render := by
    refine inputLines_unlines _ fun l hl => ?_
    obtain ⟨x, hm, rfl⟩ := List.mem_map.1 hl
    exact (hx x hm).usual.noNewline
  have hscan : scan f (unlines (xs.map CLine.render)) = { placed := pl, texts := ys.map CLine.seen, shown := (xs.filter CLine.shows).map CLine.text } := by
    rw [← scan_unused f false]
    unfold scan
    rw [hlines]
    exact e
  exact ⟨ys, by unfold seen; rw [hscan], by rw [hscan], sub, hys, hm⟩

/-- Only lines that are shown are in the result. -/
theorem compiled_filled [Recognizers] {L : Locale} {f : Filter} (hf : CompiledFilter f) {xs : List CLine} (hx : ∀ x ∈ xs, x.Wf) {p : TParser}
    (h : TextResult L f (unlines (xs.map CLine.render)) p) : p.lines.filter (fun l => l.text ≠ []) = p.lines := by
  obtain ⟨ys, -, hshown, -⟩ := compiled_seen hf hx
  refine List.filter_eq_self.2 fun l hl => ?_
  obtain ⟨us, ls, lines, fl, ub, rfl, hls, su, hsub, rfl, -⟩ := h.outcome.frame
  obtain ⟨m, hm, rfl⟩ := List.mem_map.1 hl
  have hmem : m.text ∈ ((TParser.init f).readStream L (unlines (xs.map CLine.render))).lines.map TLine.text := by
    have : m.noUse ∈ ls.map TLine.noUse := List.mem_map_of_mem (hsub.subset hm)
    rw [hls] at this
    obtain ⟨m', h1, h2⟩ := List.mem_map.1 this
    exact List.mem_map.2 ⟨m', h1, (congrArg TLine.text h2 :)⟩
  rw [(readTags L f _).2.1, hshown] at hmem
  rw [show collapse _ = _ from collapseFrom_filled _ _ (fun t ht => by
    obtain ⟨x, hm, rfl⟩ := List.mem_map.1 ht
    obtain ⟨hm, hs⟩ := List.mem_filter.1 hm
    exact text_ne_nil (hx x hm) hs)] at hmem
  obtain ⟨x, hxm, e⟩ := List.mem_map.1 hmem
  obtain ⟨hxm, hs⟩ := List.mem_filter.1 hxm
  have := text_ne_nil (hx x hxm) hs
  have e2 := core_text (finishKept_core ((TParser.init f).readStream L (unlines (xs.map CLine.render))) m)
  simpa [e2, ← e] using this

/-- The numbers of the lines that are left, if the labels `x` are found in use. -/
theorem compiled_numbers {f : Filter} (hf : CompiledFilter f) {ys : List CLine} (hy : ∀ y ∈ ys, y.Wf)
    (hdy : (labelNames ys).Nodup) (hdata : DataWithoutLabels f (ys.map CLine.seen)) {x : Found} {zs : List (TLine × Nat)}
    (z2 : zs.Pairwise fun a b => a.2 < b.2)
    (z4 : ∀ k, (∃ z ∈ zs, z.2 = k) ↔ (∃ t, (ys.map CLine.seen)[k]? = some t ∧ t.Kept f) ∧ ¬ RemovedAt f (ys.map CLine.seen) x k) :
    zs.map (·.2) = leftIdx f.unusedLabels f.compatmode x 0 {} ys := by
  have hf' : UsualFilter { f with unusedLabels := false } := ⟨hf.directives, hf.comments, rfl, hf.library, hf.whitespace⟩
  have s1 : (zs.map (·.2)).Pairwise (· < ·) := by rw [List.pairwise_map]; exact z2
  have s2 := leftIdx_sorted f.unusedLabels f.compatmode x ys 0 {}
  have key : ∀ k, k ∈ zs.map (·.2) ↔ k ∈ leftIdx f.unusedLabels f.compatmode x 0 {} ys := by
    intro k
    rw [show k ∈ zs.map (·.2) ↔ ∃ z ∈ zs, z.2 = k by simp, z4, mem_leftIdx]
    constructor
    · rintro ⟨⟨t, h1, h2⟩, h3⟩
      obtain ⟨y, h4, rfl, h5⟩ := at_map h1
      have hs := (cline_kept hf' (hy y h5)).1 h2
      exact ⟨k, y, by omega, h4, (keeps_iff hf.directives hy hdy hdata h4 hs).2 h3⟩
    · rintro ⟨j, y, rfl, h1, h2⟩
      have hs := keeps_shows h2
      rw [Nat.zero_add]
      exact ⟨⟨_, map_at h1, (cline_kept hf' (hy y (List.mem_of_getElem? h1))).2 hs⟩, (keeps_iff hf.directives hy hdy hdata h1 hs).1 h2⟩
  have a := sorted_sublist _ _ s1 s2 fun k hk => (key k).1 hk
  have b := sorted_sublist _ _ s2 s1 fun k hk => (key k).2 hk
  exact a.eq_of_length (Nat.le_antisymm a.length_le b.length_le)

/-- The lines that are left, if the labels `x` are found in use. -/
theorem compiled_left {f : Filter} (hf : CompiledFilter f) {xs ys : List CLine} (hy : ∀ y ∈ ys, y.Wf) (same : CodeEq xs ys)
    (hdy : (labelNames ys).Nodup) (hdata : DataWithoutLabels f (ys.map CLine.seen)) {x : Found} {zs : List (TLine × Nat)} {ls : List TLine}
    (z1 : zs.map (·.1) = ls) (z2 : zs.Pairwise fun a b => a.2 < b.2)
    (z3 : ∀ z ∈ zs, ∃ t, (ys.map CLine.seen)[z.2]? = some t ∧ z.1.text = t.text)
    (z4 : ∀ k, (∃ z ∈ zs, z.2 = k) ↔ (∃ t, (ys.map CLine.seen)[k]? = some t ∧ t.Kept f) ∧ ¬ RemovedAt f (ys.map CLine.seen) x k) :
    ls.map TLine.text = (leftOf f.unusedLabels f.compatmode x {} xs).map CLine.text := by
  have hz := compiled_numbers hf hy hdy hdata z2 z4
  rw [leftOf_directives, ← show ys.filter _ = _ from same, ← leftOf_directives,
    ← leftIdx_map f.unusedLabels f.compatmode x CLine.text (fun k => (ys[k]?.map CLine.text).getD []) ys 0 {} (fun j l hj => by
      simp [hj]), ← hz, ← z1, List.map_map, List.map_map]
  refine List.map_congr_left fun z hm => ?_
  obtain ⟨t, h1, h2⟩ := z3 z hm
  obtain ⟨y, h3, rfl, -⟩ := at_map h1
  simp only [Function.comp_apply, h3, Option.map_some, Option.getD_some]
  exact h2

/-- C103: of the assembly code that a compiler writes, text mode shows exactly what is left after the removal of unused labels: a
label that is found in use, nothing from a function label not found in use to the next label in use, and everything else but internal
labels not in use and labels right behind a needed one.  Labels are found in use for a reason. -/
theorem C103_exact (L : Locale) (f : Filter) (hf : CompiledFilter f) (xs : List CLine) (hx : ∀ x ∈ xs, x.Wf)
    (hd : (labelNames xs).Nodup)
    (hc : f.compatmode = true → ∀ x ∈ xs, x.isLabel = true → ¬ StartsWithOneOf dataDirectives x.text) (p : TParser)
    (h : TextResult L f (unlines (xs.map CLine.render)) p) :
    ∃ x : Found, x.Reasons xs ∧ p.lines.map TLine.text = (leftOf f.unusedLabels f.compatmode x {} xs).map CLine.text := by
  letI := recognizers
  obtain ⟨ys, hseen, -, sub, same, -⟩ := compiled_seen hf hx
  have hy : ∀ y ∈ ys, y.Wf := fun y hm => hx y (sub.subset hm)
  have hdy : (labelNames ys).Nodup := hd.sublist (sub.filterMap _)
  have hdata : DataWithoutLabels f (seen f (unlines (xs.map CLine.render))) := by
    intro h1 _ t ht hs a ha
    rw [hseen] at ht
    obtain ⟨y, hm, rfl⟩ := List.mem_map.1 ht
    obtain ⟨nt, rfl⟩ := (defines_iff (hy y hm)).1 ha
    exact hc h1 _ (sub.subset hm) rfl hs
  obtain ⟨x, defined, zs, hsound, -, z1, z2, z3, z4⟩ := C80_lines_partial L f _ p h hdata
  rw [hseen] at hsound z3 z4 hdata
  rw [compiled_filled hf hx h] at z1
  exact ⟨x, reasons_of hy sub same hsound, compiled_left hf hy same hdy hdata z1 z2 (fun z hz => (z3 z hz).imp fun t ht => ⟨ht.1, ht.2.text⟩) z4⟩

/-! ### Functions that are not needed -/

theorem leftOf_append (u c : Bool) (x : Found) (s : Spot) (a b : List CLine) :
    leftOf u c x s (a ++ b) = leftOf u c x s a ++ leftOf u c x (a.foldl (Spot.after u x) s) b := by
  induction a generalizing s with
  | nil => rfl
  | cons y a ih =>
    rw [List.cons_append, leftOf, leftOf, ih, List.append_assoc]
    rfl

theorem leftOf_sublist (u c : Bool) (x : Found) (s : Spot) (a : List CLine) : (leftOf u c x s a).Sublist (a.filter CLine.shows) := by
  induction a generalizing s with
  | nil => exact .slnil
  | cons y a ih =>
    rw [leftOf]
    split
    · rename_i hk
      rw [List.filter_cons_of_pos (keeps_shows hk)]
      exact (ih _).cons_cons _
    · rw [List.nil_append, List.filter_cons]
      split
      · exact (ih _).cons _
      · exact ih _

/-- While lines are removed, no label in use comes, and nothing is left. -/
theorem leftOf_removing (c : Bool) (x : Found) (s : Spot) (hs : s.removing = true) (a : List CLine)
    (h : ∀ b nt, .label b nt ∈ a → x.isUsed b = false) : leftOf true c x s a = [] ∧ (a.foldl (Spot.after true x) s).removing = true := by
  induction a generalizing s with
  | nil => exact ⟨rfl, hs⟩
  | cons y a ih =>
    have h1 : (s.after true x y).removing = true := by
      cases y with
      | label b nt => simp [Spot.after, hs, h b nt (by simp)]
      | _ => exact hs
    have h2 : (s.after true x y).keeps true c x y = false := by
      cases y with
      | label b nt => simp [Spot.keeps, h b nt (by simp), h1]
      | instr op sep args => simp [Spot.keeps, h1]
      | data kw sep args => simp [Spot.keeps, h1]
      | _ => rfl
    obtain ⟨i1, i2⟩ := ih _ h1 fun b nt hb => h b nt (by simp [hb])
    refine ⟨?_, i2⟩
    rw [leftOf]
    simp only [h2, Bool.false_eq_true, if_false, List.nil_append]
    exact i1

/-- C103: a function that is not needed is removed with everything below it up to the next label that is needed; what is shown are
lines before and after it. -/
theorem C103_dead (L : Locale) (f : Filter) (hf : CompiledFilter f) (hu : f.unusedLabels = true) (before body after : List CLine) (a note : Str)
    (hx : ∀ x ∈ before ++ .label a note :: body ++ after, x.Wf) (hd : (labelNames (before ++ .label a note :: body ++ after)).Nodup)
    (hc : f.compatmode = true → ∀ x ∈ before ++ .label a note :: body ++ after, x.isLabel = true → ¬ StartsWithOneOf dataDirectives x.text)
    (ha : ¬ Internal a) (hn : ∀ b ∈ labelNames (.label a note :: body), ¬ Needed (before ++ .label a note :: body ++ after) b)
    (h1 : ∀ b, Needed (before ++ .label a note :: body ++ after) b → ¬ RightBehind (before ++ .label a note :: body ++ after) a b)
    (h2 : ∀ r, ¬ DataMentions (before ++ .label a note :: body ++ after) a r) (p : TParser)
    (h : TextResult L f (unlines ((before ++ .label a note :: body ++ after).map CLine.render)) p) :
    ∃ xs ys : List CLine, xs.Sublist (before.filter CLine.shows) ∧ ys.Sublist (after.filter CLine.shows) ∧
      p.lines.map TLine.text = (xs ++ ys).map CLine.text ∧ p.outputText = unlines ((xs ++ ys).map CLine.text) := by
  obtain ⟨x, hr, e⟩ := C103_exact L f hf _ hx hd hc p h
  have nu : ∀ b ∈ labelNames (.label a note :: body), x.isUsed b = false := by
    intro b hb
    refine Bool.eq_false_iff.2 fun hh => hn b hb (hr.used b (by simpa [Found.isUsed] using hh))
  have na : x.isAlias a = false := by
    refine Bool.eq_false_iff.2 fun hh => ?_
    obtain ⟨b, g1, g2⟩ := hr.aliases a (by simpa [Found.isAlias] using hh)
    exact h1 b g2 g1
  have nd : x.isDataAlias a = false := by
    refine Bool.eq_false_iff.2 fun hh => ?_
    obtain ⟨r, b, g1, -⟩ := hr.dataAliases a (by simpa [Found.isDataAlias] using hh)
    exact h2 r g1
  have ni : internalName a = false := Bool.eq_false_iff.2 fun hh => ha (internalName_iff.1 hh)
  rw [hu, List.append_assoc, leftOf_append, List.cons_append, leftOf] at e
  generalize before.foldl (Spot.after true x) {} = s at e
  have r1 : (s.after true x (.label a note)).removing = true := by simp [Spot.after, nu a (mem_labelNames.2 ⟨note, by simp⟩), na, nd, ni]
  have k1 : (s.after true x (.label a note)).keeps true f.compatmode x (.label a note) = false := by simp [Spot.keeps, nu a (mem_labelNames.2 ⟨note, by simp⟩), r1]
  simp only [k1, Bool.false_eq_true, if_false, List.nil_append] at e
  rw [leftOf_append, (leftOf_removing f.compatmode x _ r1 body fun b nt hb => nu b (mem_labelNames.2 ⟨nt, by simp [hb]⟩)).1, List.nil_append] at e
  exact ⟨_, _, leftOf_sublist .., leftOf_sublist .., e, by rw [outputText_unlines, e]⟩

/-! ### Functions that are exported -/

/-- In a part without needless functions, all code is left. -/
theorem leftOf_kept (u c : Bool) (x : Found) (s : Spot) (hs : s.removing = false) (a : List CLine) (h : NoFunction a) :
    (leftOf u c x s a).filter (fun l => l.shows && !l.isLabel && !(c && l.isData)) = a.filter (fun l => l.shows && !l.isLabel && !(c && l.isData)) := by
  induction a generalizing s with
  | nil => rfl
  | cons y a ih =>
    have h1 : (s.after u x y).removing = false := by
      cases y with
      | label b nt =>
        have := internalName_iff.2 (h b nt (by simp))
        simp [Spot.after, hs, this]
      | _ => exact hs
    rw [leftOf, List.filter_append, ih _ h1 fun b nt hb => h b nt (by simp [hb])]
    cases y with
    | label b nt =>
      rw [List.filter_cons_of_neg (by simp [CLine.isLabel])]
      split <;> simp [CLine.isLabel]
    | instr op sep args => simp [Spot.keeps, h1, CLine.shows, CLine.isLabel, CLine.isData]
    | data kw sep args =>
      cases c with
      | true => 
        rw [List.filter_cons_of_neg (by simp [CLine.isData])]
        split <;> simp [CLine.isData]
      | false => simp [Spot.keeps, h1, CLine.shows, CLine.isLabel]
    | _ => simp [Spot.keeps, CLine.shows]

/-- C103: an exported function is kept with its code, whatever else is in the program, if all labels that its code and the data below it
mention are exported as well, and no label is right behind it.  (The data is kept too, except in the compatibility mode.) -/
theorem C103_alive (L : Locale) (f : Filter) (hf : CompiledFilter f) (before body after : List CLine) (a note : Str)
    (hx : ∀ x ∈ before ++ .label a note :: body ++ after, x.Wf) (hd : (labelNames (before ++ .label a note :: body ++ after)).Nodup)
    (hc : f.compatmode = true → ∀ x ∈ before ++ .label a note :: body ++ after, x.isLabel = true → ¬ StartsWithOneOf dataDirectives x.text)
    (ha : Global (before ++ .label a note :: body ++ after) a) (hr : ∀ g, ¬ RightBehind (before ++ .label a note :: body ++ after) g a)
    (hm : ∀ g ∈ labelNames (before ++ .label a note :: body ++ after), CodeMentions (before ++ .label a note :: body ++ after) g a ∨
      WeakBelow (before ++ .label a note :: body ++ after) g a ∨ DataMentions (before ++ .label a note :: body ++ after) g a →
      g = a ∨ Global (before ++ .label a note :: body ++ after) g) (hb : NoFunction body)
    (o : Order) (n : Nat) (v v' : List Str) (hv : a ∉ v) (p : TParser)
    (h : (TParser.init f).fromStream L o n (unlines ((before ++ .label a note :: body ++ after).map CLine.render)) v = some (p, v')) :
    ∃ xs bs ys : List CLine, xs.Sublist (before.filter CLine.shows) ∧ ys.Sublist (after.filter CLine.shows) ∧
      bs.Sublist (body.filter CLine.shows) ∧ bs.filter (fun l => l.shows && !l.isLabel && !(f.compatmode && l.isData)) =
        body.filter (fun l => l.shows && !l.isLabel && !(f.compatmode && l.isData)) ∧
      p.lines.map TLine.text = (xs ++ .label a note :: bs ++ ys).map CLine.text ∧
      p.outputText = unlines ((xs ++ .label a note :: bs ++ ys).map CLine.text) := by
  letI := recognizers
  have hmem : CLine.label a note ∈ before ++ .label a note :: body ++ after := by simp
  generalize hxs : before ++ .label a note :: body ++ after = xs at *
  obtain ⟨ys, hseen, -, sub, same, hin⟩ := compiled_seen hf hx
  have hy : ∀ y ∈ ys, y.Wf := fun y hm => hx y (sub.subset hm)
  have hdy : (labelNames ys).Nodup := hd.sublist (sub.filterMap _)
  have hdata : DataWithoutLabels f (ys.map CLine.seen) := by
    intro h1 _ t ht hs a ha
    obtain ⟨y, hm, rfl⟩ := List.mem_map.1 ht
    obtain ⟨nt, rfl⟩ := (defines_iff (hy y hm)).1 ha
    exact hc h1 _ (sub.subset hm) rfl hs
  have hexp : ∀ g, Global xs g → Exported (ys.map CLine.seen) g := by
    rintro g ⟨x, h1, h2, h3, h4⟩
    exact ⟨x.seen, List.mem_map_of_mem (hin x h1 h4), exports_directive (hx x h1) h2 h3⟩
  have hne : a ≠ [] := (hx _ hmem).usual.1
  have hlab : ∀ g, Defined (ys.map CLine.seen) g → g ∈ labelNames xs := by
    rintro g ⟨t, ht, hdef⟩
    obtain ⟨y, hym, rfl⟩ := List.mem_map.1 ht
    obtain ⟨nt, rfl⟩ := (defines_iff (hy y hym)).1 hdef
    exact mem_labelNames.2 ⟨nt, sub.subset hym⟩
  obtain ⟨x, ms, hused, -, k4, k5, k6⟩ := spared_marks L f _ (a := a) h
    (by rw [hseen]; exact ⟨(CLine.label a note).seen, List.mem_map_of_mem ((same.mem rfl).2 hmem), label_defines (hx _ hmem)⟩)
    (by rw [hseen]; exact hexp a ha) (by rw [hseen]; exact fun g hg => hr g (right_behind hy sub same hg))
    (by
      rw [hseen]
      intro g hg hcu
      by_cases he : Exported (ys.map CLine.seen) g
      · exact .inr he
      · exact (hm g (hlab g hg) ((code_or_weak hy sub same hcu he hne).imp_right .inl)).imp_right (hexp g))
    (by
      rw [hseen]
      exact fun g hg hcu => (hm g (hlab g hg) (.inr (.inr (data_mentions hy sub same hcu hne)))).imp_right (hexp g)) hv
  obtain ⟨zs, z1, z2, z3, z4, -⟩ := numbered_result (x := x) k4 k5 k6 (by rw [hseen]; exact hdata)
  rw [hseen] at z3 z4
  rw [compiled_filled hf hx ⟨o, n, v, v', h⟩] at z1
  have e := compiled_left hf hy same hdy hdata z1 z2 (fun z hz => (z3 z hz).imp fun t ht => ⟨ht.1, ht.2.text⟩) z4
  subst hxs
  have hu : x.isUsed a = true := by simpa [Found.isUsed] using hused
  rw [List.append_assoc, leftOf_append, List.cons_append, leftOf] at e
  generalize before.foldl (Spot.after f.unusedLabels x) {} = s at e
  have r1 : (s.after f.unusedLabels x (.label a note)).removing = false := by simp [Spot.after, hu]
  have k1 : (s.after f.unusedLabels x (.label a note)).keeps f.unusedLabels f.compatmode x (.label a note) = true := by simp [Spot.keeps, hu]
  simp only [k1, if_true] at e
  rw [leftOf_append] at e
  refine ⟨leftOf f.unusedLabels f.compatmode x {} before, leftOf f.unusedLabels f.compatmode x (s.after f.unusedLabels x (.label a note)) body,
    leftOf f.unusedLabels f.compatmode x (body.foldl (Spot.after f.unusedLabels x) (s.after f.unusedLabels x (.label a note))) after, leftOf_sublist .., leftOf_sublist .., leftOf_sublist .., leftOf_kept _ _ x _ r1 body hb, ?_, ?_⟩
  · rw [e]; simp [List.append_assoc]
  · rw [outputText_unlines, e]; simp [List.append_assoc]

/-- C103: a label that is shown is needed, or mentioned by data whose label is right behind a needed one. -/
theorem C103_labels (L : Locale) (f : Filter) (hf : CompiledFilter f) (hu : f.unusedLabels = true) (xs : List CLine) (hx : ∀ x ∈ xs, x.Wf)
    (p : TParser) (h : TextResult L f (unlines (xs.map CLine.render)) p) (l : TLine) (hl : l ∈ p.lines) (hlab : l.isLabel = true) :
    Needed xs l.label ∨ ∃ r b, DataMentions xs l.label r ∧ RightBehind xs r b ∧ Needed xs b := by
  letI := recognizers
  obtain ⟨ys, hseen, -, sub, same, -⟩ := compiled_seen hf hx
  have hy : ∀ y ∈ ys, y.Wf := fun y hm => hx y (sub.subset hm)
  have := C65_kept L f _ p h hu l hl hlab
  rw [hseen] at this
  rcases this with h1 | ⟨r, b, h1, h2, h3⟩
  · exact .inl (needed_of hy sub same h1).2
  · exact .inr ((reasons_of hy sub same (x := ⟨[], [], [l.label]⟩) ⟨by simp, by simp, fun a ha => by
      rw [List.mem_singleton.1 ha]; exact ⟨r, b, h1, h2, h3⟩⟩).dataAliases _ (by simp))

/-- C103: what is shown are some of the lines that are shown without the filter for unused labels, with the same source positions. -/
theorem C103_rows (L : Locale) (f : Filter) (hf : CompiledFilter f) (xs : List CLine) (hx : ∀ x ∈ xs, x.Wf)
    (hd : f.compatmode = true → ∀ x ∈ xs, x.shows = true → ¬ StartsWithOneOf dataDirectives x.text) (p : TParser)
    (h : TextResult L f (unlines (xs.map CLine.render)) p) :
    (p.lines.map fun l => (l.text, l.isLabel, if l.isLabel then none else l.shownSource)).Sublist (shownOf xs none xs) := by
  have hf' : UsualFilter { f with unusedLabels := false } := ⟨hf.directives, hf.comments, rfl, hf.library, hf.whitespace⟩
  obtain ⟨o, n, v, v', h⟩ := h
  cases hu : f.unusedLabels with
  | false =>
    rw [show f = { f with unusedLabels := false } by rw [← hu]] at h
    rw [(C102_compiled L _ hf' xs hx hd p ⟨o, n, v, v', h⟩).1]
    exact List.Sublist.refl _
  | true =>
    rw [show f = { f with unusedLabels := true } by rw [← hu]] at h
    obtain ⟨q, hq, hs, -⟩ := (C100_unused L f _ o n v).2 p v' h
    rw [← (C102_compiled L _ hf' xs hx hd q ⟨o, n, v, v', hq⟩).1]
    exact hs.map _

/-- The last function label is unique. -/
theorem function_unique {b c nb nc : Str} {x y u w : List CLine} (hb : ¬ Internal b) (hc : ¬ Internal c) (hy : NoFunction y) (hw : NoFunction w)
    (e : x ++ .label b nb :: y = u ++ .label c nc :: w) : b = c := by
  rcases List.append_eq_append_iff.1 e with ⟨z, -, e2⟩ | ⟨z, -, e2⟩
  · cases z with
    | nil => simp only [List.nil_append, List.cons.injEq, CLine.label.injEq] at e2; exact e2.1.1
    | cons d z =>
      simp only [List.cons_append, List.cons.injEq] at e2
      exact (hc (hy c nc (by rw [e2.2]; simp))).elim
  · cases z with
    | nil => simp only [List.nil_append, List.cons.injEq, CLine.label.injEq] at e2; exact e2.1.1.symm
    | cons d z =>
      simp only [List.cons_append, List.cons.injEq] at e2
      exact (hb (hw b nb (by rw [e2.2]; simp))).elim

/-- C103: labels are not needed if they are not declared, data does not mention them, and instructions mention them only in functions
that are among them. -/
theorem C103_unneeded (xs : List CLine) (dead : Str → Prop) (h1 : ∀ x ∈ xs, ∀ a, dead a → ¬ DeclaresSymbol symbolDirectives x.text a)
    (h2 : ∀ before x after a, xs = before ++ x :: after → x.runs = true → a ∈ mentioned x.text → dead a →
      ∃ before' b note inside, before = before' ++ .label b note :: inside ∧ ¬ Internal b ∧ NoFunction inside ∧ dead b)
    (h3 : ∀ x ∈ xs, x.isData = true → ∀ a ∈ mentioned x.text, ¬ dead a) (a : Str) (ha : Needed xs a) : ¬ dead a := by
  induction ha with
  | declared hx hd => exact fun h => h1 _ hx _ h hd
  | outside e hr hm hn =>
    intro h
    obtain ⟨_, b, nt, _, rfl, g1, -⟩ := h2 _ _ _ _ e hr hm h
    exact g1 (hn b nt (by simp))
  | code e hr hm hb hn _ ih =>
    intro h
    obtain ⟨_, b', _, _, e', g1, g2, g3⟩ := h2 _ _ _ _ e hr hm h
    rw [function_unique hb g1 hn g2 e'] at ih
    exact ih g3
  | data e hd hm => exact h3 _ (by rw [e]; simp) hd _ hm

/-! ### The program -/

/-- C103 for the program: with the options `-outputtext`, `-directives`, `-comment_only` and `-unused_labels` it ends unless there is a circle
as in C102, and prints what is left. -/
theorem C103_program (e : Env) (xs : List CLine) (hx : ∀ x ∈ xs, x.Wf) (hin : requestedInput e = unlines (xs.map CLine.render))
    (hl : e.localeOk = true) (hi : hasInput e.args) (h1 : b! "-outputtext" ∈ e.args) (h2 : b! "-directives" ∈ e.args)
    (h3 : b! "-comment_only" ∈ e.args) (h4 : b! "-unused_labels" ∈ e.args)
    (h5 : ∀ a ∈ [b! "-binary", b! "-library_functions", b! "-whitespace"], a ∉ e.args) (hd : (labelNames xs).Nodup)
    (hc : b! "-nocompat" ∉ e.args → ∀ x ∈ xs, x.isLabel = true → ¬ StartsWithOneOf dataDirectives x.text) :
    (NoCircle xs → ∃ n r, mainProgram e n = some r) ∧
    ∀ n r, mainProgram e n = some r → r.exit = 0 ∧
      ∃ x : Found, x.Reasons xs ∧ r.stdout = unlines ((leftOf true (decide (b! "-nocompat" ∉ e.args)) x {} xs).map CLine.text) := by
  have hf : CompiledFilter (requestedFilter e.args) :=
    ⟨by simp [requestedFilter, h2], by simp [requestedFilter, h3],
     by simpa [requestedFilter] using h5 b! "-library_functions" (by simp), by simpa [requestedFilter] using h5 b! "-whitespace" (by simp)⟩
  have hb := h5 b! "-binary" (by simp)
  constructor
  · intro hn
    letI := recognizers
    refine C71_ends e fun _ => ?_
    rw [hin]
    have hf' : UsualFilter { requestedFilter e.args with unusedLabels := false } := ⟨hf.directives, hf.comments, rfl, hf.library, hf.whitespace⟩
    exact no_chain hf' hx hn
  · intro n r h
    obtain ⟨h0, p, hp, k1, -⟩ := C48_text e n hl hi hb r h
    rw [if_pos h1] at k1
    rw [hin] at hp
    obtain ⟨x, g1, g2⟩ := C103_exact e.L _ hf xs hx hd (fun hc' => hc (by simpa [requestedFilter] using hc')) p hp
    refine ⟨h0, x, g1, ?_⟩
    rw [k1, outputText_unlines, g2]
    congr 3
    simp [requestedFilter, h4]

/-- C103 for the program: nothing is printed of a function that is not needed, up to the next label that is needed. -/
theorem C103_dead_program (e : Env) (before body after : List CLine) (a note : Str) (hx : ∀ x ∈ before ++ .label a note :: body ++ after, x.Wf)
    (hin : requestedInput e = unlines ((before ++ .label a note :: body ++ after).map CLine.render))
    (hl : e.localeOk = true) (hi : hasInput e.args) (h1 : b! "-outputtext" ∈ e.args) (h2 : b! "-directives" ∈ e.args)
    (h3 : b! "-comment_only" ∈ e.args) (h4 : b! "-unused_labels" ∈ e.args)
    (h5 : ∀ a ∈ [b! "-binary", b! "-library_functions", b! "-whitespace"], a ∉ e.args)
    (hd : (labelNames (before ++ .label a note :: body ++ after)).Nodup)
    (hc : b! "-nocompat" ∉ e.args → ∀ x ∈ before ++ .label a note :: body ++ after, x.isLabel = true → ¬ StartsWithOneOf dataDirectives x.text)
    (ha : ¬ Internal a) (hn : ∀ b ∈ labelNames (.label a note :: body), ¬ Needed (before ++ .label a note :: body ++ after) b)
    (h6 : ∀ b, Needed (before ++ .label a note :: body ++ after) b → ¬ RightBehind (before ++ .label a note :: body ++ after) a b)
    (h7 : ∀ r, ¬ DataMentions (before ++ .label a note :: body ++ after) a r) (n : Nat) (r : Result) (h : mainProgram e n = some r) :
    r.exit = 0 ∧ ∃ xs ys : List CLine, xs.Sublist (before.filter CLine.shows) ∧ ys.Sublist (after.filter CLine.shows) ∧
      r.stdout = unlines ((xs ++ ys).map CLine.text) := by
  have hf : CompiledFilter (requestedFilter e.args) :=
    ⟨by simp [requestedFilter, h2], by simp [requestedFilter, h3],
     by simpa [requestedFilter] using h5 b! "-library_functions" (by simp), by simpa [requestedFilter] using h5 b! "-whitespace" (by simp)⟩
  obtain ⟨h0, p, hp, k1, -⟩ := C48_text e n hl hi (h5 b! "-binary" (by simp)) r h
  rw [if_pos h1] at k1
  rw [hin] at hp
  obtain ⟨xs, ys, g1, g2, -, g3⟩ := C103_dead e.L _ hf (by simp [requestedFilter, h4]) before body after a note hx hd
    (fun hc' => hc (by simpa [requestedFilter] using hc')) ha hn h6 h7 p hp
  exact ⟨h0, xs, ys, g1, g2, k1.trans g3⟩

/-- C103 for the program: an exported function is printed with its code if all labels that its code and the data below it mention are
exported as well, and no label is right behind it. -/
theorem C103_alive_program (e : Env) (before body after : List CLine) (a note : Str) (hx : ∀ x ∈ before ++ .label a note :: body ++ after, x.Wf)
    (hin : requestedInput e = unlines ((before ++ .label a note :: body ++ after).map CLine.render))
    (hl : e.localeOk = true) (hi : hasInput e.args) (h1 : b! "-outputtext" ∈ e.args) (h2 : b! "-directives" ∈ e.args)
    (h3 : b! "-comment_only" ∈ e.args)
    (h5 : ∀ a ∈ [b! "-binary", b! "-library_functions", b! "-whitespace"], a ∉ e.args)
    (hd : (labelNames (before ++ .label a note :: body ++ after)).Nodup)
    (hc : b! "-nocompat" ∉ e.args → ∀ x ∈ before ++ .label a note :: body ++ after, x.isLabel = true → ¬ StartsWithOneOf dataDirectives x.text)
    (ha : Global (before ++ .label a note :: body ++ after) a) (hr : ∀ g, ¬ RightBehind (before ++ .label a note :: body ++ after) g a)
    (hm : ∀ g ∈ labelNames (before ++ .label a note :: body ++ after), CodeMentions (before ++ .label a note :: body ++ after) g a ∨
      WeakBelow (before ++ .label a note :: body ++ after) g a ∨ DataMentions (before ++ .label a note :: body ++ after) g a →
      g = a ∨ Global (before ++ .label a note :: body ++ after) g) (hb : NoFunction body)
    (n : Nat) (r : Result) (h : mainProgram e n = some r) :
    r.exit = 0 ∧ ∃ xs bs ys : List CLine, xs.Sublist (before.filter CLine.shows) ∧ ys.Sublist (after.filter CLine.shows) ∧
      bs.Sublist (body.filter CLine.shows) ∧
      (∀ l ∈ body, l.shows = true → l.isLabel = false → l.isData = false ∨ b! "-nocompat" ∈ e.args → l ∈ bs) ∧
      r.stdout = unlines ((xs ++ .label a note :: bs ++ ys).map CLine.text) := by
  have hf : CompiledFilter (requestedFilter e.args) :=
    ⟨by simp [requestedFilter, h2], by simp [requestedFilter, h3],
     by simpa [requestedFilter] using h5 b! "-library_functions" (by simp), by simpa [requestedFilter] using h5 b! "-whitespace" (by simp)⟩
  obtain ⟨h0, p, v', hp, k1, -⟩ := C48_run e n hl hi (h5 b! "-binary" (by simp)) r h
  rw [if_pos h1] at k1
  rw [hin] at hp
  obtain ⟨xs, bs, ys, g1, g2, g3, g4, -, g5⟩ := C103_alive e.L _ hf before body after a note hx hd
    (fun hc' => hc (by simpa [requestedFilter] using hc')) ha hr hm hb _ _ [] v' (by simp) p hp
  refine ⟨h0, xs, bs, ys, g1, g2, g3, fun l hl h1 h2 h3 => ?_, k1.trans g5⟩
  have : l ∈ body.filter (fun l => l.shows && !l.isLabel && !((requestedFilter e.args).compatmode && l.isData)) := by
    refine List.mem_filter.2 ⟨hl, ?_⟩
    rcases h3 with h3 | h3 <;> simp [h1, h2, h3, requestedFilter]
  rw [← g4] at this
  exact (List.mem_filter.1 this).1

/-! ### A sample -/

def usedBefore : List CLine :=
  [.block b! ".text" [] [], .directive b! ".globl" b! "\t" b! "f", .label b! "f" [], .instr b! "leal" b! "\t" b! "(%rdi,%rdi), %eax",
   .instr b! "ret" [] []]
def usedBody : List CLine := [.label b! ".L2" [], .instr b! "jmp" b! "\t" b! ".L2"]
def usedAfter : List CLine := [.directive b! ".globl" b! "\t" b! "h", .label b! "h" [], .instr b! "jmp" b! "\t" b! "f", .data b! ".quad" b! "\t" b! "f"]

/-- Two exported functions, and between them one that is not needed. -/
def usedSample : List CLine := usedBefore ++ .label b! "g" b! " # @g" :: usedBody ++ usedAfter

theorem usedSample_wf : ∀ x ∈ usedSample, x.Wf := by
  have wf : ∀ x : CLine, x.Usual → (x.isBlock = false → ∀ w ∈ [b! ".cfi_endproc", b! ".data", b! ".text", b! ".section"], occurs w x.text = false) →
      (x.isDirective = false → occurs b! ".cfi_startproc" x.text = false) → (x.shows = false → occurs b! ".inst" x.text = false) →
      (∀ c ∈ x.text.getLast?, c ≠ c! '=' ∧ c ≠ c! '(') → x.Wf := fun x a b c d e => ⟨a, b, c, d, e⟩
  unfold usedSample usedBefore usedBody usedAfter
  simp only [List.cons_append, List.nil_append, List.forall_mem_cons]
  refine ⟨?_, ?_, ?_, ?_, ?_, ?_, ?_, ?_, ?_, ?_, ?_, ?_, fun x hx => by cases hx⟩
  all_goals refine wf _ ?_ (by decide +kernel) (by decide +kernel) (by decide +kernel) (by decide +kernel)
  all_goals unfold CLine.Usual
  all_goals try unfold Spaced
  all_goals try unfold SymbolChar
  all_goals try unfold Letter
  all_goals try unfold Digit
  all_goals first
    | exact ⟨by decide, by decide, .inl rfl⟩
    | exact ⟨by decide, by decide, .inr ⟨b! " ", b! " @g", rfl, by decide, by decide⟩⟩
    | decide +kernel
    | exact ⟨by decide, ⟨_, rfl, by decide⟩, by decide, by decide, by decide, fun h => absurd h (by decide)⟩
    | exact ⟨by decide, _, _, rfl, by decide, by decide⟩

example : unlines (usedSample.map CLine.render) =
    b! "\t.text\n" ++ b! "\t.globl\tf\n" ++ b! "f:\n" ++ b! "\tleal\t(%rdi,%rdi), %eax\n" ++ b! "\tret\n" ++ b! "g: # @g\n" ++ b! ".L2:\n" ++
    b! "\tjmp\t.L2\n" ++ b! "\t.globl\th\n" ++ b! "h:\n" ++ b! "\tjmp\tf\n" ++ b! "\t.quad\tf\n" := by decide +kernel

theorem usedSample_unneeded : ∀ b ∈ labelNames (.label b! "g" b! " # @g" :: usedBody), ¬ Needed usedSample b := by
  have key := C103_unneeded usedSample (fun a => a ∈ [b! "g", b! ".L2"]) ?_ ?_ ?_
  · intro b hb hn
    refine key b hn ?_
    exact hb
  · rintro x hx a ha ⟨bs, kw, bs', r, g1, g2, g3, g4, g5, e⟩
    rcases List.mem_append.1 g2 with g2 | g2
    · have hc : Contains x.text b! ".weak" := by
        have : kw = b! ".weakext" ∨ kw = b! ".weak" := by simpa using g2
        rcases this with rfl | rfl
        · exact ⟨bs, b! "ext" ++ bs' ++ a ++ r, by rw [e]; simp⟩
        · exact ⟨bs, bs' ++ a ++ r, by rw [e]; simp⟩
      have := (by decide +kernel : ∀ x ∈ usedSample, occurs b! ".weak" x.text = false) x hx
      rw [(occurs_iff _ _).2 hc] at this
      cases this
    · have := getGlobal_of (⟨bs, kw, bs', r, g1, g2, g3, g4, g5, e⟩ : DeclaresSymbol globalDirectives x.text a)
      exact (by decide +kernel : ∀ x ∈ usedSample, ∀ a ∈ [b! "g", b! ".L2"], getGlobalDefinedLabel x.text ≠ some a) x hx a ha this
  · intro before x after a e hr hm ha
    have hk : usedSample[before.length]? = some x := by rw [e]; simp
    have hlen : before.length < 12 := by
      have := congrArg List.length e
      rw [List.length_append, List.length_cons] at this
      have h12 : usedSample.length = 12 := rfl
      omega
    have : ∀ k, k < 12 → ∀ x ∈ usedSample[k]?, x.runs = true → (∃ a ∈ [b! "g", b! ".L2"], a ∈ mentioned x.text) → k = 7 := by decide +kernel
    have h7 := this _ hlen x hk hr ⟨a, ha, hm⟩
    have : before = usedSample.take 7 := by rw [← h7, e, List.take_left]
    refine ⟨usedBefore, b! "g", _, [.label b! ".L2" []], by rw [this]; rfl, ?_, fun b nt hb => ?_, by simp⟩
    · rintro ⟨c, r, e, h⟩
      cases e
      revert h; decide
    · have : b = b! ".L2" ∧ nt = [] := by simpa using hb
      exact ⟨c! '.', b! "L2", this.1, .inl rfl⟩
  · decide +kernel

theorem usedSample_at {before after : List CLine} {a nt : Str} (e : usedSample = before ++ .label a nt :: after) {k : Nat}
    (hu : ∀ j, j < 12 → usedSample[j]?.bind CLine.defined = some a → j = k) : before = usedSample.take k ∧ after = usedSample.drop (k + 1) := by
  have h1 : usedSample[before.length]?.bind CLine.defined = some a := by rw [e]; simp [CLine.defined]
  have hlen : before.length < 12 := by
    have := congrArg List.length e
    rw [List.length_append, List.length_cons] at this
    have h12 : usedSample.length = 12 := rfl
    omega
  have := hu _ hlen h1
  rw [← this]
  constructor
  · rw [e, List.take_left]
  · rw [e, List.drop_append]; simp

/-- The hypotheses of `C103_dead` hold for the sample. -/
example : (∀ b, Needed usedSample b → ¬ RightBehind usedSample b! "g" b) ∧ (∀ r, ¬ DataMentions usedSample b! "g" r) ∧
    (labelNames usedSample).Nodup ∧ ¬ Internal b! "g" := by
  refine ⟨?_, ?_, by decide +kernel, ?_⟩
  · rintro b - ⟨before, nt, between, nt', after, e, hq⟩
    obtain ⟨e1, -⟩ := usedSample_at (before := before ++ .label b nt :: between) (k := 5) e (by decide +kernel)
    rcases List.eq_nil_or_concat between with rfl | ⟨between, y, rfl⟩
    · exact absurd (congrArg List.getLast? e1) (by simp [usedSample, usedBefore])
    · have h1 := congrArg List.getLast? e1
      have h2 := hq y (by simp)
      rw [List.concat_eq_append, show before ++ CLine.label b nt :: (between ++ [y]) = (before ++ .label b nt :: between) ++ [y] by simp,
        List.getLast?_concat] at h1
      have : y = .instr b! "ret" [] [] := by simpa [usedSample, usedBefore] using h1
      rw [this] at h2
      cases h2
  · rintro r ⟨before, nt, inside, x, after, e, h1, h2, -⟩
    have hx : x ∈ usedSample := by rw [e]; simp
    exact (by decide +kernel : ∀ x ∈ usedSample, x.isData = true → b! "g" ∉ mentioned x.text) x hx h1 h2
  · rintro ⟨c, r, e, h⟩
    cases e
    revert h; decide

/-- The hypotheses of `C103_alive` hold for the function `h` of the sample, where code and data mention `f`. -/
example : Global usedSample b! "h" ∧ (∀ g, ¬ RightBehind usedSample g b! "h") ∧
    ∀ g ∈ labelNames usedSample, CodeMentions usedSample g b! "h" ∨ WeakBelow usedSample g b! "h" ∨ DataMentions usedSample g b! "h" →
      g = b! "h" ∨ Global usedSample g := by
  have hf : Global usedSample b! "f" :=
    ⟨.directive b! ".globl" b! "\t" b! "f", by decide +kernel, rfl, (getGlobal_iff _ _).1 (by decide +kernel), by decide +kernel⟩
  have hment : ∀ {before inside after : List CLine} {nt : Str} {x : CLine} {g : Str}, usedSample = before ++ .label b! "h" nt :: inside ++ x :: after →
      g ∈ mentioned x.text → g = b! "h" ∨ Global usedSample g := by
    intro before inside after nt x g e hm
    rw [List.append_assoc] at e
    obtain ⟨-, e1⟩ := usedSample_at (k := 9) e (by decide +kernel)
    have hx : x ∈ usedSample.drop 10 := by rw [← e1]; simp
    have h1 := (by decide +kernel : ∀ x ∈ usedSample.drop 10, mentioned x.text = [b! "f"]) x hx
    rw [h1] at hm
    rw [List.mem_singleton.1 hm]
    exact .inr hf
  refine ⟨?_, ?_, ?_⟩
  · exact ⟨.directive b! ".globl" b! "\t" b! "h", by decide +kernel, rfl, (getGlobal_iff _ _).1 (by decide +kernel), by decide +kernel⟩
  · rintro g ⟨before, nt, between, nt', after, e, hq⟩
    rw [List.append_assoc] at e
    obtain ⟨-, e1⟩ := usedSample_at (k := 9) e (by decide +kernel)
    have : CLine.label g nt' ∈ usedSample.drop 10 := by rw [← e1]; simp
    exact absurd this (by simp [usedSample, usedBefore, usedBody, usedAfter])
  · rintro g hg (⟨before, nt, inside, x, after, e, hr, hm, -, -⟩ | ⟨before, nt, inside, x, after, e, hw, -⟩ | ⟨before, nt, inside, x, after, e, hr, hm, -⟩)
    · exact hment e hm
    · exfalso
      have hc : Contains x.text b! ".weak" := by
        rcases hw with ⟨bs, kw, bs', r, -, h2, -, -, -, e⟩ | ⟨⟨bs, kw, bs', r, -, h2, -, -, -, e⟩, -⟩
        · rw [List.mem_singleton.1 h2] at e
          exact ⟨bs, b! "ext" ++ bs' ++ g ++ r, by rw [e]; simp⟩
        · rw [List.mem_singleton.1 h2] at e
          exact ⟨bs, bs' ++ g ++ r, by rw [e]; simp⟩
      have := (by decide +kernel : ∀ x ∈ usedSample, occurs b! ".weak" x.text = false) x (by rw [e]; simp)
      rw [(occurs_iff _ _).2 hc] at this
      cases this
    · exact hment e hm

/-- The program on the sample. -/
example : mainProgram (sampleEnv [b! "-stdin", b! "-outputtext", b! "-directives", b! "-comment_only", b! "-unused_labels"]
    (unlines (usedSample.map CLine.render))) 100 =
    some ⟨b! "f:\n" ++ b! "        leal    (%rdi,%rdi), %eax\n" ++ b! "        ret\n" ++ b! "h:\n" ++ b! "        jmp     f\n" ++ b! "        .quad   f\n", 0, none⟩ := by
  decide +kernel

end AsmParser
