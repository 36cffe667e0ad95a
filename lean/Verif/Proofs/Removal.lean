/-
The final pass removes exactly the lines that the specification says.
-/
import Verif.Proofs.UsageMarks
import Verif.Spec.Removal

namespace AsmParser

/-- The variables of the loop after the lines `before`. -/
structure RemInv (f : Filter) (before : List TLine) (r : RemState) : Prop where
  remove : r.remove = true ↔ f.unusedLabels = true ∧ InUnused before
  label : (∃ a l b, before = a ++ l :: b ∧ l.isLabel = true ∧ (∀ x ∈ b, x.isLabel = false) ∧ r.isUsed = l.isUsed ∧
      r.isUsedThroughAlias = l.isUsedThroughAlias ∧ r.isDataUsedThroughAlias = l.isUsedDataThroughAlias) ∨
    ((∀ x ∈ before, x.isLabel = false) ∧ r.isUsed = false ∧ r.isUsedThroughAlias = false ∧ r.isDataUsedThroughAlias = false)

theorem inUnused_snoc (ls : List TLine) (l : TLine) :
    InUnused (ls ++ [l]) ↔ l.StartsRemoval ∨ (InUnused ls ∧ (l.isLabel = true → l.isUsed = false)) := by
  constructor
  · rintro ⟨a, x, b, e, h1, h2⟩
    rcases b.eq_nil_or_concat with rfl | ⟨b, y, rfl⟩
    · have := List.append_inj' e rfl
      simp only [List.cons.injEq, and_true] at this
      exact .inl (this.2 ▸ h1)
    · rw [List.concat_eq_append, ← List.cons_append, ← List.append_assoc] at e
      have := List.append_inj' e rfl
      simp only [List.cons.injEq, and_true] at this
      obtain ⟨rfl, rfl⟩ := this
      rw [List.concat_eq_append] at h2
      exact .inr ⟨⟨a, x, b, rfl, h1, fun y hy => h2 y (List.mem_append_left _ hy)⟩, h2 _ (List.mem_append_right _ (List.mem_singleton.2 rfl))⟩
  · rintro (h | ⟨⟨a, x, b, rfl, h1, h2⟩, h3⟩)
    · exact ⟨ls, l, [], rfl, h, by simp⟩
    · refine ⟨a, x, b ++ [l], by simp, h1, fun y hy => ?_⟩
      rcases List.mem_append.1 hy with hy | hy
      · exact h2 y hy
      · rw [List.mem_singleton.1 hy]; exact h3

/-- Splitting a list at its last label. -/
theorem last_label_unique {a a' b b' : List TLine} {l l' : TLine} (e : a ++ l :: b = a' ++ l' :: b') (h : l.isLabel = true)
    (h' : l'.isLabel = true) (hb : ∀ x ∈ b, x.isLabel = false) (hb' : ∀ x ∈ b', x.isLabel = false) : l = l' := by
  rcases List.append_eq_append_iff.1 e with ⟨c, e1, e2⟩ | ⟨c, e1, e2⟩
  · cases c with
    | nil => exact (List.cons.inj e2).1
    | cons y c =>
      have := hb l' ((List.cons.inj e2).2 ▸ List.mem_append_right _ List.mem_cons_self)
      rw [h'] at this; exact absurd this (by simp)
  · cases c with
    | nil => exact (List.cons.inj e2).1.symm
    | cons y c =>
      have := hb' l ((List.cons.inj e2).2 ▸ List.mem_append_right _ List.mem_cons_self)
      rw [h] at this; exact absurd this (by simp)

theorem RemInv.loose {f : Filter} {before : List TLine} {r : RemState} {l : TLine} (h : RemInv f (before ++ [l]) r) :
    LooseData (before ++ [l]) ↔ (l.isData = true ∧ l.source.insideProc = false) ∧
      r.isUsed = false ∧ r.isUsedThroughAlias = false ∧ r.isDataUsedThroughAlias = false := by
  have h1 : (∃ a x, before ++ [l] = a ++ [x] ∧ x.isData = true ∧ x.source.insideProc = false) ↔
      l.isData = true ∧ l.source.insideProc = false := by
    constructor
    · rintro ⟨a, x, e, h⟩
      have := List.append_inj' e rfl
      simp only [List.cons.injEq, and_true] at this
      exact this.2 ▸ h
    · intro h; exact ⟨_, _, rfl, h⟩
  unfold LooseData
  rw [h1]
  refine and_congr_right fun _ => ?_
  rcases h.label with ⟨a, x, b, e, g1, g2, g3, g4, g5⟩ | ⟨g0, g1, g2, g3⟩
  · rw [g3, g4, g5]
    constructor
    · intro hh; exact (hh a x b e g1 g2).2
    · intro hh a' x' b' e' i1 i2
      obtain rfl := last_label_unique (e.symm.trans e') g1 i1 g2 i2
      exact ⟨g1, hh⟩
  · refine ⟨fun _ => ⟨g1, g2, g3⟩, fun _ a x b e i1 _ => ?_⟩
    have := g0 x (e ▸ List.mem_append_right _ List.mem_cons_self)
    rw [i1] at this; exact absurd this (by simp)

theorem remDrop_iff {f : Filter} {before : List TLine} {r : RemState} {l : TLine} {only : Bool} (h : RemInv f (before ++ [l]) r)
    (h1 : only = true → f.unusedLabels = true ∧ l.RemovedAlone) (h2 : f.unusedLabels = true → l.RemovedAlone → r.remove = true ∨ only = true) :
    remDrop f r only l = true ↔ Removed f before l := by
  unfold remDrop Removed
  rw [h.loose, Bool.or_eq_true, Bool.or_eq_true, h.remove]
  have : (!r.isUsed && !r.isUsedThroughAlias && !r.isDataUsedThroughAlias && f.compatmode && f.directives && l.isData && !l.source.insideProc) = true ↔
      f.compatmode = true ∧ f.directives = true ∧ (l.isData = true ∧ l.source.insideProc = false) ∧
      r.isUsed = false ∧ r.isUsedThroughAlias = false ∧ r.isDataUsedThroughAlias = false := by
    simp only [Bool.and_eq_true, Bool.not_eq_true']
    constructor
    · rintro ⟨⟨⟨⟨⟨⟨a, b⟩, c⟩, d⟩, e⟩, f⟩, g⟩; exact ⟨d, e, ⟨f, g⟩, a, b, c⟩
    · rintro ⟨d, e, ⟨f, g⟩, a, b, c⟩; exact ⟨⟨⟨⟨⟨⟨a, b⟩, c⟩, d⟩, e⟩, f⟩, g⟩
  rw [this]
  constructor
  · rintro ((h | h) | h)
    · exact .inl ⟨h.1, .inl h.2⟩
    · exact .inl ⟨(h1 h).1, .inr (h1 h).2⟩
    · exact .inr h
  · rintro (⟨h, h' | h'⟩ | h)
    · exact .inl (.inl ⟨h, h'⟩)
    · rcases h2 h h' with h2 | h2
      · exact .inl (.inl (RemInv.remove ‹_› |>.1 h2))
      · exact .inl (.inr h2)
    · exact .inr h

theorem remInv_step {f : Filter} {g : Usage} {before : List TLine} {r : RemState} {l : TLine} (h : RemInv f before r)
    (hp : l.isLabel = true → l.isInternalLabel = false → l.closestParentLabel = []) :
    RemInv f (before ++ [l]) (remLabel f g r l).1 ∧
    (remDrop f (remLabel f g r l).1 (remLabel f g r l).2 l = true ↔ Removed f before l) := by
  cases hl : l.isLabel with
  | false =>
    have e : remLabel f g r l = (r, false) := by unfold remLabel; rw [if_neg (by rw [hl]; simp)]
    rw [e]
    have hi : RemInv f (before ++ [l]) r := by
      refine ⟨?_, ?_⟩
      · rw [h.remove, inUnused_snoc]
        have : ¬ l.StartsRemoval := fun h => by have := h.1.1; rw [hl] at this; exact absurd this (by simp)
        rw [hl]
        simp [this]
      · rcases h.label with ⟨a, x, b, rfl, g1, g2, g3⟩ | ⟨g0, g1⟩
        · refine .inl ⟨a, x, b ++ [l], by simp, g1, fun y hy => ?_, g3⟩
          rcases List.mem_append.1 hy with hy | hy
          · exact g2 y hy
          · rw [List.mem_singleton.1 hy]; exact hl
        · refine .inr ⟨fun y hy => ?_, g1⟩
          rcases List.mem_append.1 hy with hy | hy
          · exact g0 y hy
          · rw [List.mem_singleton.1 hy]; exact hl
    refine ⟨hi, remDrop_iff hi (by simp) fun _ h => ?_⟩
    rcases h with h | h
    · have := h.1.1; rw [hl] at this; exact absurd this (by simp)
    · have := h.1; rw [hl] at this; exact absurd this (by simp)
  | true =>
    have hpar := hp hl
    have key : ∀ r' : RemState, r'.isUsed = l.isUsed → r'.isUsedThroughAlias = l.isUsedThroughAlias →
        r'.isDataUsedThroughAlias = l.isUsedDataThroughAlias → (r'.remove = true ↔ f.unusedLabels = true ∧ InUnused (before ++ [l])) →
        RemInv f (before ++ [l]) r' := fun r' g1 g2 g3 g4 => ⟨g4, .inl ⟨before, l, [], rfl, hl, by simp, g1, g2, g3⟩⟩
    have hrem := h.remove
    have hs := inUnused_snoc before l
    have hst : l.StartsRemoval ↔ l.isUsed = false ∧ l.isUsedThroughAlias = false ∧ l.isUsedDataThroughAlias = false ∧
        l.isInternalLabel = false ∧ l.isInlineAsm = false := by
      unfold TLine.StartsRemoval TLine.Unused
      rw [hl]; simp [and_assoc]
    have hal : l.RemovedAlone ↔ l.isUsed = false ∧ (l.isUsedThroughAlias = true ∨ l.isUsedDataThroughAlias = false ∧
        (l.isInternalLabel = true ∨ l.isInlineAsm = true)) := by
      unfold TLine.RemovedAlone TLine.Unused
      rw [hl]
      cases l.isUsed <;> cases l.isUsedThroughAlias <;> cases l.isUsedDataThroughAlias <;> simp
    rw [hst, hl] at hs
    unfold remLabel
    rw [if_pos hl]
    simp only
    cases hu : f.unusedLabels with
    | false =>
      have hi := key { r with isUsed := l.isUsed, isUsedThroughAlias := l.isUsedThroughAlias, isDataUsedThroughAlias := l.isUsedDataThroughAlias } rfl rfl rfl (by
        show r.remove = true ↔ _
        rw [hrem, hu]; simp)
      exact ⟨hi, remDrop_iff hi (by simp) fun h => by rw [hu] at h; exact absurd h (by simp)⟩
    | true =>
      rw [hu] at hrem
      simp only [true_and] at hrem
      cases hr : r.remove with
      | true =>
        have hin := hrem.1 hr
        cases hus : l.isUsed with
        | true =>
          simp only [Bool.true_and, if_true]
          have hi := key { r with remove := false, isUsed := true, isUsedThroughAlias := l.isUsedThroughAlias, isDataUsedThroughAlias := l.isUsedDataThroughAlias } hus.symm rfl rfl (by
            rw [hs, hus]; simp)
          exact ⟨hi, remDrop_iff hi (by simp) fun _ h => by have := (hal.1 h).1; rw [hus] at this; exact absurd this (by simp)⟩
        | false =>
          simp only [Bool.not_true, Bool.false_and, Bool.and_false, Bool.false_eq_true, if_false, if_true]
          have hi := key { r with remove := true, isUsed := false, isUsedThroughAlias := l.isUsedThroughAlias, isDataUsedThroughAlias := l.isUsedDataThroughAlias } hus.symm rfl rfl (by
            rw [hs, hus, hu]; simp [hin])
          exact ⟨hi, remDrop_iff hi (by simp) fun _ _ => .inl rfl⟩
      | false =>
        have hin : ¬ InUnused before := fun h => by have := hrem.2 h; rw [hr] at this; exact absurd this (by simp)
        cases hus : l.isUsed with
        | true =>
          simp only [Bool.false_and, Bool.not_true, Bool.and_false, Bool.false_eq_true, if_false, if_true]
          have hi := key { r with remove := false, isUsed := true, isUsedThroughAlias := l.isUsedThroughAlias, isDataUsedThroughAlias := l.isUsedDataThroughAlias } hus.symm rfl rfl (by
            rw [hs, hus]; simp)
          exact ⟨hi, remDrop_iff hi (by simp) fun _ h => by have := (hal.1 h).1; rw [hus] at this; exact absurd this (by simp)⟩
        | false =>
          simp only [Bool.not_false, Bool.and_self, Bool.false_eq_true, if_false, if_true]
          have hno : (¬ (l.isUsedThroughAlias = false ∧ l.isUsedDataThroughAlias = false ∧
              l.isInternalLabel = false ∧ l.isInlineAsm = false)) → RemInv f (before ++ [l]) { remove := false, isUsed := false, isUsedThroughAlias := l.isUsedThroughAlias, isDataUsedThroughAlias := l.isUsedDataThroughAlias } := by
            intro h
            refine key _ hus.symm rfl rfl ?_
            rw [hs, hus]
            simp only [true_and, hin, false_and, or_false]
            simp only [Bool.false_eq_true, false_iff]
            exact fun h' => h h'.2
          rw [hus] at hal
          cases ha : l.isUsedThroughAlias with
          | true =>
            rw [ha] at hno hal
            have hi := hno (by simp)
            simp only [if_true]
            exact ⟨hi, remDrop_iff hi (fun _ => ⟨hu, hal.2 (by simp)⟩) fun _ _ => .inr rfl⟩
          | false =>
            rw [ha] at hno hal
            simp only [Bool.false_eq_true, if_false]
            cases hdd : l.isUsedDataThroughAlias with
            | true =>
              rw [hdd] at hno hal
              have hi := hno (by simp)
              simp only [if_true]
              exact ⟨hi, remDrop_iff hi (by simp) fun _ h => by simpa using hal.1 h⟩
            | false =>
              rw [hdd] at hno hal
              simp only [Bool.false_eq_true, if_false]
              cases hint : l.isInternalLabel with
              | true =>
                rw [hint] at hno hal
                have hi := hno (by simp)
                simp only [if_true]
                exact ⟨hi, remDrop_iff hi (fun _ => ⟨hu, hal.2 (by simp)⟩) fun _ _ => .inr rfl⟩
              | false =>
                rw [hint] at hno hal
                simp only [Bool.false_eq_true, if_false]
                cases hasm : l.isInlineAsm with
                | true =>
                  rw [hasm] at hno hal
                  have hi := hno (by simp)
                  simp only [if_true]
                  exact ⟨hi, remDrop_iff hi (fun _ => ⟨hu, hal.2 (by simp)⟩) fun _ _ => .inr rfl⟩
                | false =>
                  simp only [hpar hint, List.isEmpty_nil, Bool.not_true, Bool.false_eq_true, if_false]
                  have hi := key { r with remove := true, isUsed := false, isUsedThroughAlias := false, isDataUsedThroughAlias := false }
                    hus.symm ha.symm hdd.symm (by
                      rw [hs, hus, ha, hdd, hint, hasm, hu]; simp)
                  exact ⟨hi, remDrop_iff hi (by simp) fun _ _ => .inl rfl⟩

theorem removeLoop_remaining (p : TParser) (r : RemState) (before ls : List TLine) (h : RemInv p.filter before r)
    (hp : ∀ l ∈ ls, l.isLabel = true → l.isInternalLabel = false → l.closestParentLabel = [])
    (drop : List TLine → TLine → Bool) (hd : ∀ b l, drop b l = true ↔ Removed p.filter b l) :
    (p.removeLoop r ls).1 = (remaining drop before ls).map p.finishKept := by
  induction ls generalizing r before with
  | nil => rfl
  | cons l ls ih =>
    obtain ⟨h1, h2⟩ := remInv_step (g := p.usage) h (hp l List.mem_cons_self)
    unfold TParser.removeLoop remaining
    simp only
    have := ih _ _ h1 fun x hx => hp x (List.mem_cons_of_mem _ hx)
    by_cases hr : Removed p.filter before l
    · rw [if_pos (h2.2 hr), if_pos ((hd _ _).2 hr)]; exact this
    · rw [if_neg (fun h => hr (h2.1 h)), if_neg (fun h => hr ((hd _ _).1 h)), List.map_cons, ← this]

/-- The lines of the result are those that remain of the lines read, with their flags. -/
theorem result_remaining {L : Locale} {f : Filter} {s : Str} {p : TParser} (h : TextResult L f s p) :
    ∃ ms : List TLine, ms.map TLine.noUse = (heldLines L f s).map TLine.noUse ∧ (∀ l ∈ ms, FlagsOk (references L f s) l) ∧
      ∀ drop : List TLine → TLine → Bool, (∀ b l, drop b l = true ↔ Removed f b l) →
        p.lines = (remaining drop [] ms).map p.finishKept := by
  obtain ⟨o, n, v, v', h⟩ := h
  have hr := usage_read L f s
  have hflt : ((TParser.init f).readStream L s).filter = f := by
    obtain ⟨e, -, -, h, -⟩ := readStream_lines L f (fun _ _ => True) trivial (fun _ _ _ _ _ _ _ _ => trivial) s
    exact h
  unfold TParser.fromStream at h
  unfold heldLines references
  generalize (TParser.init f).readStream L s = q at h hr hflt
  split at h
  · exact absurd h (by simp)
  · rename_i q2 v2 hm
    simp only [Option.some.injEq, Prod.mk.injEq] at h
    obtain ⟨rfl, -⟩ := h
    have hfl : ∀ l ∈ q2.lines, FlagsOk q.filterNonLabels.usage l := by
      refine markLoop_flags (p := q.filterNonLabels) _ hm fun l hl => ?_
      obtain ⟨h1, h2, h3⟩ := (hr.fresh l hl).flags
      exact ⟨fun h => by rw [h1] at h; exact absurd h (by simp), fun h => by rw [h2] at h; exact absurd h (by simp),
        fun h => by rw [h3] at h; exact absurd h (by simp)⟩
    obtain ⟨ls, ub, rfl, hn⟩ := markLabelUsage_frame hm
    have hn : ls.map TLine.noUse = q.lines.map TLine.noUse := hn
    refine ⟨ls, hn, hfl, fun drop hd => ?_⟩
    have := removeLoop_remaining { q.filterNonLabels with lines := ls, ub := ub } {} [] ls
      ⟨by simp [InUnused], .inr ⟨by simp, rfl, rfl, rfl⟩⟩ (by
        intro x hx h1 h2
        have : x.noUse ∈ ls.map TLine.noUse := List.mem_map.2 ⟨x, hx, rfl⟩
        rw [hn, List.mem_map] at this
        obtain ⟨y, hy, e⟩ := this
        have e1 : y.isLabel = x.isLabel := by have := congrArg TLine.isLabel e; exact this
        have e2 : y.isInternalLabel = x.isInternalLabel := by have := congrArg TLine.isInternalLabel e; exact this
        have e3 : y.closestParentLabel = x.closestParentLabel := by have := congrArg TLine.closestParentLabel e; exact this
        rw [← e3]
        exact (hr.fresh y hy).parent (e1.trans h1) (e2.trans h2)) drop (by
        show ∀ b l, drop b l = true ↔ Removed q.filter b l
        rw [hflt]; exact hd)
    exact this

end AsmParser
