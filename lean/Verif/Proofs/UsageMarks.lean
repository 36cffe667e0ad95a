/-
Helper lemmas: the flags that the usage analysis sets, and what they mean for the output.
-/
import Verif.Proofs.UsageTables
import Verif.Proofs.TextView

namespace AsmParser

attribute [local irreducible] Re.search Re.fullMatch

/-! ### Reading -/

theorem usage_read' (L : Locale) (f : Filter) (s : Str) : ∃ e, (e = [] ∨ e = [[]]) ∧
    UsageInv f (inputLines s ++ e) ((TParser.init f).readStream L s) := by
  obtain ⟨e, he, h, -, -⟩ := readStream_lines L f (UsageInv f)
    ⟨fun c hc => absurd hc (by simp [TParser.init]),
      ⟨.inl rfl, .inl rfl, .inl rfl, fun a b ⟨_, h, _⟩ => absurd h (by simp [TParser.init]),
        fun a b ⟨_, h, _⟩ => absurd h (by simp [TParser.init]), fun a h => absurd h (by simp [TParser.init]),
        fun a h => absurd h (by simp [TParser.init]), rfl, ⟨by simp [TParser.init], by simp [TParser.init]⟩, ⟨by simp [TParser.init], by simp [TParser.init]⟩⟩,
      by simp [TParser.init], .inl rfl, by simp [TParser.init]⟩
    (fun done p l _ hf hb h hs => by
      have t := h.tables
      exact usage_eol L (p := p.addText l) hf (basic_addText hb l) h.carry rfl
        ⟨t.prev, t.parent, t.addr, t.code, t.data, t.user, t.alias, t.weak, t.keysU, t.keysD⟩ h.fresh h.addr h.alias (carry_step hs)) s
  exact ⟨e, he.imp_right fun h => h.1, h⟩

theorem declaredBy_last {f : Filter} {a : List Str} {kws : List Str} {x : Str} (hk : ∀ k ∈ kws, ink k ≠ [])
    (h : DeclaredBy f (a ++ [[]]) kws x) : DeclaredBy f a kws x := by
  obtain ⟨raw, h1, t, i, h2, h3⟩ := h
  rcases List.mem_append.1 h1 with h1 | h1
  · exact ⟨raw, h1, t, i, h2, h3⟩
  · rw [List.mem_singleton.1 h1] at h2
    have e := shown_ink h2
    obtain ⟨bs, kw, bs', r, -, hkw, -, -, -, rfl⟩ := h3
    simp only [ink_append] at e
    have : ink kw = [] := by
      have e : ink bs ++ ink kw ++ ink bs' ++ ink x ++ ink r = [] := e
      simp only [List.append_eq_nil_iff] at e
      exact e.1.1.1.2
    exact absurd this (hk kw hkw)

/-- The invariant at the end, with the lines of the input. -/
theorem usage_read (L : Locale) (f : Filter) (s : Str) : UsageInv f (inputLines s) ((TParser.init f).readStream L s) := by
  obtain ⟨e, he, h⟩ := usage_read' L f s
  rcases he with rfl | rfl
  · rwa [List.append_nil] at h
  · refine ⟨h.carry, h.tables.mono (fun _ h => h) (fun _ _ h => ?_) (fun _ _ h => h) (fun _ h => ?_), h.fresh, h.addr, h.alias⟩
    · exact h.imp_right fun h => ⟨h.1, declaredBy_last (by decide) h.2⟩
    · exact declaredBy_last (by decide) h

theorem refers_filter {m : List (Str × List Str)} {k : Str × List Str → Bool} {a b : Str} (h : Refers (m.filter k) a b) :
    Refers m a b := by
  obtain ⟨rs, h1, h2⟩ := h
  exact ⟨rs, (List.mem_filter.1 h1).1, h2⟩

theorem references_code {L : Locale} {f : Filter} {s : Str} {a b : Str} (h : CodeRef (references L f s) a b) :
    CodeEvidence f (inputLines s) (heldLines L f s) a b := (usage_read L f s).tables.code a b (refers_filter h)

theorem references_weak (L : Locale) (f : Filter) (s : Str) : (references L f s).weaklyUsed = [] := by
  show List.filter _ ((TParser.init f).readStream L s).usage.weaklyUsed = []
  rw [(usage_read L f s).tables.weak]; rfl

theorem references_data {L : Locale} {f : Filter} {s : Str} {a b : Str} (h : DataRef (references L f s) a b) :
    DataEvidence (heldLines L f s) a b := by
  rcases h with h | ⟨rs, h, -⟩
  · exact (usage_read L f s).tables.data a b h
  · rw [references_weak] at h; exact absurd h (by simp)

theorem references_keys (L : Locale) (f : Filter) (s : Str) : ((references L f s).used.map (·.1)).Nodup := by
  show ((List.filter _ ((TParser.init f).readStream L s).usage.used).map (·.1)).Nodup
  exact List.Nodup.sublist (List.Sublist.map _ List.filter_sublist) (usage_read L f s).tables.keysU.1

theorem references_once (L : Locale) (f : Filter) (s : Str) : ∀ e ∈ (references L f s).used, e.2.Nodup :=
  fun e he => (usage_read L f s).tables.keysU.2 e (List.mem_filter.1 he).1

/-! ### Soundness of the flags -/

/-- What the flags of a label line claim. -/
structure FlagsOk (g : Usage) (l : TLine) : Prop where
  used : l.isUsed = true → Reachable g l.label
  alias : l.isUsedThroughAlias = true → ∃ a, (l.label, a) ∈ g.aliased ∧ Reachable g a
  data : l.isUsedDataThroughAlias = true → ∃ r a, DataRef g l.label r ∧ (r, a) ∈ g.aliased ∧ Reachable g a

theorem isUsedThroughAlias_sound {g : Usage} {o : Order} {n : Nat} {a : Str} {v v' : List Str}
    (h : isUsedThroughAlias g o n a v = some (true, v')) : ∃ b, (a, b) ∈ g.aliased ∧ Reachable g b := by
  unfold isUsedThroughAlias at h
  split at h
  · rename_i b hb
    exact ⟨b, mem_of_lookup_str hb, isUsed_sound h⟩
  · exact absurd h (by simp)

theorem markLine_flags {g : Usage} {o : Order} {n : Nat} {l l' : TLine} {v v' : List Str} (h : markLine g o n l v = some (l', v'))
    (hf : FlagsOk g l) : FlagsOk g l' := by
  unfold markLine at h
  split at h
  · exact absurd h (by simp)
  · rename_i hu
    simp only [Option.some.injEq, Prod.mk.injEq] at h
    rw [← h.1]
    exact ⟨fun _ => isUsed_sound hu, hf.alias, hf.data⟩
  · split at h
    · exact absurd h (by simp)
    · rename_i hu
      simp only [Option.some.injEq, Prod.mk.injEq] at h
      rw [← h.1]
      refine ⟨hf.used, hf.alias, fun _ => ?_⟩
      obtain ⟨r, hr, w, hw⟩ := anyRef_true hu
      obtain ⟨a, h1, h2⟩ := isUsedThroughAlias_sound hw
      exact ⟨r, a, .inl (refsOf_refers (mem_run_order.1 hr)), h1, h2⟩
    · split at h
      · exact absurd h (by simp)
      · rename_i hu
        simp only [Option.some.injEq, Prod.mk.injEq] at h
        rw [← h.1]
        exact ⟨hf.used, fun _ => isUsedThroughAlias_sound hu, hf.data⟩
      · simp only [Option.some.injEq, Prod.mk.injEq] at h
        rw [← h.1]
        exact hf

theorem markLoop_flags {o : Order} {n : Nat} (names : List Str) {p p' : TParser} {v v' : List Str}
    (h : p.markLoop o n names v = some (p', v')) (hf : ∀ l ∈ p.lines, FlagsOk p.usage l) : ∀ l ∈ p'.lines, FlagsOk p.usage l := by
  induction names generalizing p v with
  | nil =>
    simp only [TParser.markLoop, Option.some.injEq, Prod.mk.injEq] at h
    rw [← h.1]; exact hf
  | cons a names ih =>
    unfold TParser.markLoop at h
    simp only at h
    split at h
    · exact ih (p := { p with ub := true }) h hf
    · rename_i line hline
      split at h
      · exact absurd h (by simp)
      · rename_i line' w hm
        refine ih (p := { p with lines := p.lines.set _ line' }) h fun l hl => ?_
        rcases List.mem_or_eq_of_mem_set hl with hl | rfl
        · exact hf l hl
        · exact markLine_flags hm (hf _ (List.mem_of_getElem? hline))

/-! ### Flags and the output -/

theorem finishKept_frame (p : TParser) (l : TLine) : ∃ src, p.finishKept l =
    { l with labels := l.labels.filter fun r => (p.labelsDefined.lookup r.name).isSome, source := src } := by
  unfold TParser.finishKept
  simp only
  split
  · split <;> exact ⟨_, rfl⟩
  · exact ⟨_, rfl⟩

/-- With the filter, a label line that is kept is used. -/
theorem removeLoop_label (p : TParser) (hu : p.filter.unusedLabels = true) (r : RemState) (ls : List TLine)
    (hp : ∀ l ∈ ls, l.isLabel = true → l.isInternalLabel = false → l.closestParentLabel = []) :
    ∀ l ∈ (p.removeLoop r ls).1, l.isLabel = true → ∃ l0 ∈ ls, l = p.finishKept l0 ∧ (l0.isUsed = true ∨ l0.isUsedDataThroughAlias = true) := by
  induction ls generalizing r with
  | nil => intro l hl; exact absurd hl (by simp [TParser.removeLoop])
  | cons x ls ih =>
    rw [List.forall_mem_cons] at hp
    intro l hl hlab
    unfold TParser.removeLoop at hl
    simp only at hl
    have rest : l ∈ (p.removeLoop (remLabel p.filter p.usage r x).1 ls).1 →
        ∃ l0 ∈ x :: ls, l = p.finishKept l0 ∧ (l0.isUsed = true ∨ l0.isUsedDataThroughAlias = true) := by
      intro h
      obtain ⟨l0, h1, h2⟩ := ih _ hp.2 l h hlab
      exact ⟨l0, List.mem_cons_of_mem _ h1, h2⟩
    split at hl
    · exact rest hl
    · rename_i hd
      rcases List.mem_cons.1 hl with rfl | hl
      · refine ⟨x, List.mem_cons_self .., rfl, ?_⟩
        have hx : x.isLabel = true := by
          obtain ⟨src, e⟩ := finishKept_frame p x
          rw [e] at hlab; exact hlab
        unfold remDrop at hd
        simp only [Bool.or_eq_true, not_or, Bool.not_eq_true] at hd
        obtain ⟨⟨h1, h2⟩, -⟩ := hd
        cases hused : x.isUsed with
        | true => exact .inl rfl
        | false =>
          right
          cases hda : x.isUsedDataThroughAlias with
          | true => rfl
          | false =>
            exfalso
            unfold remLabel at h1 h2
            simp only [hx, hu, hused, hda, ↓reduceIte, Bool.and_false, Bool.not_false, Bool.and_true, Bool.false_eq_true] at h1 h2
            cases hr : r.remove with
            | true => simp [hr] at h1
            | false =>
              simp only [hr, Bool.not_false, ↓reduceIte] at h1 h2
              cases hua : x.isUsedThroughAlias with
              | true => simp [hua] at h2
              | false =>
                cases hin : x.isInternalLabel with
                | true => simp [hua, hin] at h2
                | false =>
                  cases hia : x.isInlineAsm with
                  | true => simp [hua, hin, hia] at h2
                  | false => simp [hua, hin, hia, hp.1 hx hin] at h1
      · exact rest hl

/-- A label line that is used is kept. -/
theorem removeLoop_used (p : TParser) (hu : p.filter.unusedLabels = true) (r : RemState) (ls : List TLine) {l : TLine}
    (hl : l ∈ ls) (hlab : l.isLabel = true) (hused : l.isUsed = true) : p.finishKept l ∈ (p.removeLoop r ls).1 := by
  induction ls generalizing r with
  | nil => exact absurd hl (by simp)
  | cons x ls ih =>
    unfold TParser.removeLoop
    simp only
    rcases List.mem_cons.1 hl with rfl | hl
    · have : remDrop p.filter (remLabel p.filter p.usage r l).1 (remLabel p.filter p.usage r l).2 l = false := by
        unfold remLabel remDrop
        cases hr : r.remove <;> simp [hlab, hused, hu]
      rw [this]
      exact List.mem_cons_self ..
    · split
      · exact ih _ hl
      · exact List.mem_cons_of_mem _ (ih _ hl)

/-! ### Completeness -/

theorem markLine_same {g : Usage} {o : Order} {n : Nat} {l l' : TLine} {v v' : List Str} (h : markLine g o n l v = some (l', v')) :
    l'.isLabel = l.isLabel ∧ l'.label = l.label ∧ (l.isUsed = true → l'.isUsed = true) ∧
    (l.isUsedThroughAlias = true → l'.isUsedThroughAlias = true) ∧
    (l.isUsedDataThroughAlias = true → l'.isUsedDataThroughAlias = true) := by
  unfold markLine at h
  split at h
  · exact absurd h (by simp)
  · simp only [Option.some.injEq, Prod.mk.injEq] at h
    rw [← h.1]; exact ⟨rfl, rfl, fun _ => rfl, fun h => h, fun h => h⟩
  · split at h
    · exact absurd h (by simp)
    · simp only [Option.some.injEq, Prod.mk.injEq] at h
      rw [← h.1]; exact ⟨rfl, rfl, fun h => h, fun h => h, fun _ => rfl⟩
    · split at h
      · exact absurd h (by simp)
      · simp only [Option.some.injEq, Prod.mk.injEq] at h
        rw [← h.1]; exact ⟨rfl, rfl, fun h => h, fun _ => rfl, fun h => h⟩
      · simp only [Option.some.injEq, Prod.mk.injEq] at h
        rw [← h.1]; exact ⟨rfl, rfl, fun h => h, fun h => h, fun h => h⟩

/-- The labels that the questions about one label can mark. -/
theorem markLine_marks {g : Usage} {o : Order} {n : Nat} {l l' : TLine} {v v' : List Str} {X : Str → Prop}
    (h : markLine g o n l v = some (l', v')) (hv : ∀ x ∈ v, X x) (hl : ∀ x, Leads g l.label x → X x)
    (ha : ∀ e ∈ g.aliased, ∀ x, Leads g e.2 x → X x) : ∀ x ∈ v', X x := by
  have h0 : ∀ {a b v v'}, isUsed g o n a 1 v = some (b, v') → (∀ x ∈ v, X x) → (∀ x, Leads g a x → X x) → ∀ x ∈ v', X x := by
    intro a b v v' h hv hl x hx
    rcases isUsed_marks h x hx with hx | hx
    · exact hv x hx
    · exact hl x hx
  have h1 : ∀ {a b v v'}, isUsedThroughAlias g o n a v = some (b, v') → (∀ x ∈ v, X x) → ∀ x ∈ v', X x := by
    intro a b v v' h hv
    unfold isUsedThroughAlias at h
    split at h
    · rename_i y hy
      exact h0 h hv (ha _ (mem_of_lookup_str hy))
    · simp only [Option.some.injEq, Prod.mk.injEq] at h
      rw [← h.2]; exact hv
  have h2 : ∀ {a b v v'}, isDataUsedThroughAlias g o n a v = some (b, v') → (∀ x ∈ v, X x) → ∀ x ∈ v', X x := by
    intro a b v v' h hv
    exact anyRef_inv (P := fun v => ∀ x ∈ v, X x) (fun r _ v b v' hv h => h1 h hv) hv h
  unfold markLine at h
  split at h
  · exact absurd h (by simp)
  · rename_i hu
    simp only [Option.some.injEq, Prod.mk.injEq] at h
    rw [← h.2]; exact h0 hu hv hl
  · rename_i hu
    have hv := h0 hu hv hl
    split at h
    · exact absurd h (by simp)
    · rename_i hu
      simp only [Option.some.injEq, Prod.mk.injEq] at h
      rw [← h.2]; exact h2 hu hv
    · rename_i hu
      have hv := h2 hu hv
      split at h
      · exact absurd h (by simp)
      · rename_i hu
        simp only [Option.some.injEq, Prod.mk.injEq] at h
        rw [← h.2]; exact h1 hu hv
      · rename_i hu
        simp only [Option.some.injEq, Prod.mk.injEq] at h
        rw [← h.2]; exact h1 hu hv

/-- The table of labels points to their lines. -/
def Points (p : TParser) (names : List Str) : Prop :=
  ∀ a ∈ names, ∃ l, p.lines[(p.labelsDefined.lookup a).getD 0 - 1]? = some l ∧ l.isLabel = true ∧ l.label = a

theorem Points.set {p : TParser} {names : List Str} (h : Points p names) {i : Nat} {l l' : TLine} (hi : p.lines[i]? = some l)
    (h1 : l'.isLabel = l.isLabel) (h2 : l'.label = l.label) : Points { p with lines := p.lines.set i l' } names := by
  intro a ha
  obtain ⟨x, hx, h3, h4⟩ := h a ha
  show ∃ l, (p.lines.set i l')[_]? = some l ∧ _
  by_cases e : i = (p.labelsDefined.lookup a).getD 0 - 1
  · rw [← e] at hx ⊢
    rw [hi] at hx
    cases hx
    refine ⟨l', ?_, h1.trans h3, h2.trans h4⟩
    rw [List.getElem?_set_self (List.getElem?_eq_some_iff.1 hi).1]
  · refine ⟨x, ?_, h3, h4⟩
    rw [List.getElem?_set_ne e]; exact hx

/-- A used line stays used. -/
theorem markLoop_keeps {o : Order} {n : Nat} {Q : TLine → Prop}
    (hQ : ∀ g l v l' v', markLine g o n l v = some (l', v') → Q l → Q l') (names : List Str) {p p' : TParser} {v v' : List Str}
    (h : p.markLoop o n names v = some (p', v')) (hl : ∃ l ∈ p.lines, Q l) : ∃ l ∈ p'.lines, Q l := by
  induction names generalizing p v with
  | nil =>
    simp only [TParser.markLoop, Option.some.injEq, Prod.mk.injEq] at h
    rw [← h.1]; exact hl
  | cons a names ih =>
    unfold TParser.markLoop at h
    simp only at h
    split at h
    · exact ih (p := { p with ub := true }) h hl
    · rename_i line hline
      split at h
      · exact absurd h (by simp)
      · rename_i line' w hm
        refine ih (p := { p with lines := p.lines.set _ line' }) h ?_
        obtain ⟨l, h1, h2⟩ := hl
        obtain ⟨j, hj⟩ := List.mem_iff_getElem?.1 h1
        by_cases e : (p.labelsDefined.lookup a).getD 0 - 1 = j
        · refine ⟨line', List.mem_iff_getElem?.2 ⟨j, ?_⟩, ?_⟩
          · rw [e, List.getElem?_set_self (List.getElem?_eq_some_iff.1 hj).1]
          · rw [e, hj] at hline
            cases hline
            exact hQ _ _ _ _ _ hm h2
        · exact ⟨l, List.mem_iff_getElem?.2 ⟨j, by rw [List.getElem?_set_ne e]; exact hj⟩, h2⟩

/-- A label is found to be used if the questions about the other labels do not mark labels that matter. -/
theorem markLoop_finds {o : Order} {n : Nat} {X : Str → Prop} {a : Str} (names : List Str) {p p' : TParser} {v v' : List Str}
    (hk : (p.usage.used.map (·.1)).Nodup) (h : p.markLoop o n names v = some (p', v')) (ht : Points p names)
    (ha : a ∈ names) (hv : ∀ x ∈ v, X x) (hlead : ∀ b ∈ names, b ≠ a → ∀ x, Leads p.usage b x → X x)
    (hal : ∀ e ∈ p.usage.aliased, ∀ x, Leads p.usage e.2 x → X x)
    (hr : ∀ v, (∀ x ∈ v, X x) → CodeReachable p.usage v a) :
    ∃ l ∈ p'.lines, l.isLabel = true ∧ l.label = a ∧ l.isUsed = true := by
  induction names generalizing p v with
  | nil => exact absurd ha (by simp)
  | cons b names ih =>
    obtain ⟨l, hl, hlab, hname⟩ := ht b (List.mem_cons_self ..)
    unfold TParser.markLoop at h
    simp only [hl] at h
    split at h
    · exact absurd h (by simp)
    · rename_i l' w hm
      obtain ⟨s1, s2, -, -, -⟩ := markLine_same hm
      by_cases e : b = a
      · subst e
        have hused : l'.isUsed = true := by
          unfold markLine at hm
          split at hm
          · exact absurd hm (by simp)
          · simp only [Option.some.injEq, Prod.mk.injEq] at hm
            rw [← hm.1]
          · rename_i hu
            have := isUsed_complete hk hu
            rw [startVis_pos _ (by omega), hname] at this
            exact absurd (hr v hv) this
        refine markLoop_keeps (Q := fun l => l.isLabel = true ∧ l.label = b ∧ l.isUsed = true) (fun g l v l' v' h hq => ?_) names h ?_
        · obtain ⟨s1, s2, s3, -, -⟩ := markLine_same h
          exact ⟨s1.trans hq.1, s2.trans hq.2.1, s3 hq.2.2⟩
        · refine ⟨l', List.mem_iff_getElem?.2 ⟨(p.labelsDefined.lookup b).getD 0 - 1, ?_⟩, s1.trans hlab, s2.trans hname, hused⟩
          exact List.getElem?_set_self (List.getElem?_eq_some_iff.1 hl).1
      · have ha : a ∈ names := (List.mem_cons.1 ha).resolve_left (Ne.symm e)
        have ht' : Points { p with lines := p.lines.set _ l' } names :=
          (show Points p names from fun x hx => ht x (List.mem_cons_of_mem _ hx)).set hl s1 s2
        refine ih (p := { p with lines := p.lines.set _ l' }) hk h ht' ha ?_ (fun y hy => hlead y (List.mem_cons_of_mem _ hy)) hal hr
        exact markLine_marks hm hv (by rw [hname]; exact hlead b (List.mem_cons_self ..) e) hal

/-! ### The result of text mode -/

theorem points_read (L : Locale) (f : Filter) (s : Str) :
    Points ((TParser.init f).readStream L s) (((TParser.init f).readStream L s).labelsDefined.map (·.1)) := by
  obtain ⟨e, -, h⟩ := textInv L f s
  intro a ha
  obtain ⟨i, hi⟩ := lookup_of_key ha
  obtain ⟨-, x, hx, h1, h2⟩ := h.table.sound _ (mem_of_lookup hi)
  rw [hi]
  exact ⟨x, hx, h1, h2⟩

theorem defined_key {L : Locale} {f : Filter} {s : Str} {l : TLine} (hl : l ∈ heldLines L f s) (hlab : l.isLabel = true) :
    l.label ∈ ((TParser.init f).readStream L s).labelsDefined.map (·.1) := by
  obtain ⟨e, -, h⟩ := textInv L f s
  have := h.table.complete l hl hlab
  obtain ⟨i, hi⟩ := Option.isSome_iff_exists.1 this
  exact List.mem_map.2 ⟨_, mem_of_lookup hi, rfl⟩

theorem key_defined {L : Locale} {f : Filter} {s : Str} {a : Str}
    (h : a ∈ ((TParser.init f).readStream L s).labelsDefined.map (·.1)) : ∃ l ∈ heldLines L f s, l.isLabel = true ∧ l.label = a := by
  obtain ⟨l, h1, h2⟩ := points_read L f s a h
  exact ⟨l, List.mem_of_getElem? h1, h2⟩

/-- The label lines of the output, with the filter. -/
theorem result_label {L : Locale} {f : Filter} {s : Str} {p : TParser} (h : TextResult L f s p) (hu : f.unusedLabels = true) :
    ∀ l ∈ p.lines, l.isLabel = true → FlagsOk (references L f s) l ∧ (l.isUsed = true ∨ l.isUsedDataThroughAlias = true) := by
  obtain ⟨o, n, v, v', h⟩ := h
  have hr := usage_read L f s
  have hflt : ((TParser.init f).readStream L s).filter = f := by
    obtain ⟨e, -, -, h, -⟩ := readStream_lines L f (fun _ _ => True) trivial (fun _ _ _ _ _ _ _ _ => trivial) s
    exact h
  unfold TParser.fromStream at h
  show ∀ l ∈ p.lines, l.isLabel = true → FlagsOk ((TParser.init f).readStream L s).filterNonLabels.usage l ∧ _
  generalize (TParser.init f).readStream L s = q at h hr hflt
  split at h
  · exact absurd h (by simp)
  · rename_i q2 v2 hm
    simp only [Option.some.injEq, Prod.mk.injEq] at h
    obtain ⟨rfl, -⟩ := h
    have hfl : ∀ l ∈ q2.lines, FlagsOk q.filterNonLabels.usage l := by
      refine markLoop_flags (p := q.filterNonLabels) _ hm fun l hl => ?_
      obtain ⟨h1, h2, h3⟩ := (hr.fresh l hl).flags
      exact ⟨fun h => by rw [h1] at h; exact absurd h (by simp), fun h => by rw [h2] at h; exact absurd h (by simp),
        fun h => by rw [h3] at h; exact absurd h (by simp)⟩
    obtain ⟨ls, ub, rfl, hn⟩ := markLabelUsage_frame hm
    have hn : ls.map TLine.noUse = q.lines.map TLine.noUse := hn
    intro l hl hlab
    obtain ⟨l0, h0, rfl, hused⟩ := removeLoop_label { q.filterNonLabels with lines := ls, ub := ub } (by rw [← hflt] at hu; exact hu) {} ls (by
      intro x hx h1 h2
      have : x.noUse ∈ ls.map TLine.noUse := List.mem_map.2 ⟨x, hx, rfl⟩
      rw [hn, List.mem_map] at this
      obtain ⟨y, hy, e⟩ := this
      have e1 : y.isLabel = x.isLabel := by have := congrArg TLine.isLabel e; exact this
      have e2 : y.isInternalLabel = x.isInternalLabel := by have := congrArg TLine.isInternalLabel e; exact this
      have e3 : y.closestParentLabel = x.closestParentLabel := by have := congrArg TLine.closestParentLabel e; exact this
      rw [← e3]
      exact (hr.fresh y hy).parent (e1.trans h1) (e2.trans h2)) l hl hlab
    obtain ⟨src, e⟩ := finishKept_frame { q.filterNonLabels with lines := ls, ub := ub } l0
    rw [e]
    have := hfl l0 h0
    exact ⟨⟨this.used, this.alias, this.data⟩, hused⟩

/-- A label that is found to be used is in the output. -/
theorem result_finds {L : Locale} {f : Filter} {s : Str} {o : Order} {n : Nat} {v v' : List Str} {p : TParser}
    (h : (TParser.init f).fromStream L o n s v = some (p, v')) (hu : f.unusedLabels = true) {X : Str → Prop} {a : Str}
    (ha : ∃ l ∈ heldLines L f s, l.isLabel = true ∧ l.label = a) (hv : ∀ x ∈ v, X x)
    (hlead : ∀ l ∈ heldLines L f s, l.isLabel = true → l.label ≠ a → ∀ x, Leads (references L f s) l.label x → X x)
    (hal : ∀ e ∈ (references L f s).aliased, ∀ x, Leads (references L f s) e.2 x → X x)
    (hr : ∀ v, (∀ x ∈ v, X x) → CodeReachable (references L f s) v a) :
    ∃ l ∈ p.lines, l.isLabel = true ∧ l.label = a ∧ l.isUsed = true := by
  have hk := references_keys L f s
  have hpt := points_read L f s
  have hkey : a ∈ ((TParser.init f).readStream L s).labelsDefined.map (·.1) := by
    obtain ⟨l, h1, h2, rfl⟩ := ha
    exact defined_key h1 h2
  have hlead' : ∀ b ∈ ((TParser.init f).readStream L s).labelsDefined.map (·.1), b ≠ a → ∀ x, Leads (references L f s) b x → X x := by
    intro b hb hne
    obtain ⟨l, h1, h2, rfl⟩ := key_defined hb
    exact hlead l h1 h2 hne
  clear hlead ha
  have hflt : ((TParser.init f).readStream L s).filter = f := by
    obtain ⟨e, -, -, h, -⟩ := readStream_lines L f (fun _ _ => True) trivial (fun _ _ _ _ _ _ _ _ => trivial) s
    exact h
  unfold references at hk hal hr hlead'
  unfold TParser.fromStream at h
  generalize (TParser.init f).readStream L s = q at *
  split at h
  · exact absurd h (by simp)
  · rename_i q2 v2 hm
    simp only [Option.some.injEq, Prod.mk.injEq] at h
    obtain ⟨rfl, -⟩ := h
    have hp : ((o.run .labels (q.filterNonLabels.labelsDefined.map (·.1)))).Perm (q.labelsDefined.map (·.1)) := o.perm _ _
    obtain ⟨l, hl, h1, h2, h3⟩ := markLoop_finds (X := X) (a := a) _ (p := q.filterNonLabels) hk hm
      (fun x hx => hpt x (hp.mem_iff.1 hx)) (hp.mem_iff.2 hkey) hv (fun b hb => hlead' b (hp.mem_iff.1 hb)) hal hr
    obtain ⟨ls, ub, rfl, hn⟩ := markLabelUsage_frame hm
    refine ⟨_, removeLoop_used { q.filterNonLabels with lines := ls, ub := ub } (by rw [← hflt] at hu; exact hu) {} ls hl h1 h3, ?_⟩
    obtain ⟨src, e⟩ := finishKept_frame { q.filterNonLabels with lines := ls, ub := ub } l
    rw [e]
    exact ⟨h1, h2, h3⟩

end AsmParser
