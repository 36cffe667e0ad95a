import Verif.Proofs.Spared

/-
Helper lemmas for C108: visible labels that are asked about before all others.
-/

namespace AsmParser

/-- The line of a visible label that is not taken is marked, and only this label is taken. -/
theorem markLine_taken {g : Usage} {o : Order} {n : Nat} {l l' : TLine} {v v' : List Str} (hg : l.label ∈ g.usercode)
    (h : markLine g o n l v = some (l', v')) (hv : l.label ∉ v) : l'.isUsed = true ∧ v' = l.label :: v := by
  have key : ∀ r w, isUsed g o n l.label 1 v = some (r, w) → r = true ∧ w = l.label :: v := by
    intro r w h
    cases n with
    | zero => simp [isUsed] at h
    | succ n =>
      unfold isUsed at h
      simp only [Nat.one_ne_zero, if_false] at h
      rw [if_neg (by simpa using hv), if_pos (by simpa using hg)] at h
      simp only [Option.some.injEq, Prod.mk.injEq] at h
      exact ⟨h.1.symm, h.2.symm⟩
  unfold markLine at h
  split at h
  · cases h
  · rename_i hu
    simp only [Option.some.injEq, Prod.mk.injEq] at h
    rw [← h.1, ← h.2]
    exact ⟨rfl, (key _ _ hu).2⟩
  · rename_i hu
    cases (key _ _ hu).1

/-- If visible labels come before all others, their lines are marked. -/
theorem markLoop_first {G : Str → Prop} {o : Order} {n : Nat} (names : List Str) {p p' : TParser} {v v' : List Str}
    (hG : ∀ a ∈ names, G a → a ∈ p.usage.usercode) (hn : names.Nodup) (hf : ∀ us a ws, names = us ++ a :: ws → G a → ∀ b ∈ us, G b)
    (hp : Points p names) (h : p.markLoop o n names v = some (p', v')) (hv : ∀ a ∈ names, G a → a ∉ v) {a : Str} (ha : a ∈ names) (hga : G a) :
    ∃ l, p'.lines[p.place a]? = some l ∧ l.isUsed = true := by
  induction names generalizing p v with
  | nil => cases ha
  | cons b names ih =>
    have hgb : G b := by
      obtain ⟨us, ws, e⟩ := List.append_of_mem ha
      cases us with
      | nil =>
        simp only [List.nil_append, List.cons.injEq] at e
        exact e.1 ▸ hga
      | cons c us =>
        have := hf _ _ _ e hga c (by simp)
        simp only [List.cons_append, List.cons.injEq] at e
        exact e.1 ▸ this
    obtain ⟨l, hl, hlab, hname⟩ := hp b (List.mem_cons_self ..)
    unfold TParser.markLoop at h
    simp only [hl] at h
    split at h
    · cases h
    · rename_i l' w hm
      obtain ⟨s1, s2, -, -, -⟩ := markLine_same hm
      subst hname
      obtain ⟨t1, rfl⟩ := markLine_taken (hG _ (List.mem_cons_self ..) hgb) hm (hv _ (List.mem_cons_self ..) hgb)
      by_cases e : l.label = a
      · subst e
        exact markLoop_stays names h ⟨l', List.getElem?_set_self (List.getElem?_eq_some_iff.1 hl).1, t1⟩
      · refine ih (p := { p with lines := p.lines.set _ l' }) (fun x hx => hG x (List.mem_cons_of_mem _ hx)) (List.nodup_cons.1 hn).2
          (fun us a ws e hg b hb => hf (_ :: us) a ws (by rw [e]; rfl) hg b (List.mem_cons_of_mem _ hb))
          ((show Points p names from fun x hx => hp x (List.mem_cons_of_mem _ hx)).set hl s1 s2) h (fun x hx hg => ?_)
          ((List.mem_cons.1 ha).resolve_left fun e' => e e'.symm)
        rw [List.mem_cons, not_or]
        exact ⟨fun e => (List.nodup_cons.1 hn).1 (e ▸ hx), hv x (List.mem_cons_of_mem _ hx) hg⟩

/-- The lines of the result, for all inputs, if visible labels come before all others: they are found in use. -/
theorem result_first {L : Locale} {f : Filter} {s : Str} {o : Order} {n : Nat} {v v' : List Str} {p : TParser}
    (h : (TParser.init f).fromStream L o n s v = some (p, v')) {G : Str → Prop} (hG : ∀ a, G a → a ∈ (references L f s).usercode)
    (hf : ∀ us a ws, o.run .labels (((TParser.init f).readStream L s).labelsDefined.map (·.1)) = us ++ a :: ws → G a → ∀ b ∈ us, G b)
    (hv : ∀ a ∈ v, ¬ G a) :
    ∃ (us as ds : List Str) (ms : List TLine), (∀ a ∈ ((TParser.init f).readStream L s).labelsDefined.map (·.1), G a → a ∈ us) ∧
      ((∀ a ∈ us, Reachable (references L f s) a) ∧
      (∀ a ∈ as, ∃ b, (a, b) ∈ (references L f s).aliased ∧ Reachable (references L f s) b) ∧
      (∀ a ∈ ds, ∃ r b, DataRef (references L f s) a r ∧ (r, b) ∈ (references L f s).aliased ∧ Reachable (references L f s) b)) ∧
      ms.map TLine.noUse = (heldLines L f s).map TLine.noUse ∧
      (∀ x l y, ms = x ++ l :: y → (l.isUsed = true ↔ MarkedIn us l y) ∧ (l.isUsedThroughAlias = true ↔ MarkedIn as l y) ∧
        (l.isUsedDataThroughAlias = true ↔ MarkedIn ds l y)) ∧
      ∀ drop : List TLine → TLine → Bool, (∀ b l, drop b l = true ↔ Removed f b l) →
        p.lines = (remaining drop [] ms).map p.finishKept := by
  classical
  have hnd : (((TParser.init f).readStream L s).labelsDefined.map (·.1)).Nodup := by
    obtain ⟨e, -, ht⟩ := textInv L f s
    exact ht.table.nodup
  obtain ⟨names, us, as, ds, ms, hperm, ⟨h1, h2⟩, -, h4, h5, h6⟩ := result_marks_of h (fun names us as ds => (∀ a ∈ names, G a → a ∈ us) ∧
      (∀ a ∈ us, Reachable (references L f s) a) ∧
      (∀ a ∈ as, ∃ b, (a, b) ∈ (references L f s).aliased ∧ Reachable (references L f s) b) ∧
      (∀ a ∈ ds, ∃ r b, DataRef (references L f s) a r ∧ (r, b) ∈ (references L f s).aliased ∧ Reachable (references L f s) b))
    fun q p' v' names e1 e2 hp hm => by
      rw [← e1] at hG ⊢
      rw [← e2] at hf
      have hn : names.Nodup := by rw [e2]; exact (o.perm _ _).nodup_iff.2 hnd
      obtain ⟨us, as, ds, ⟨r1, r2, r3⟩, g2, g3⟩ := markLoop_marks names hp hm
      have key := fun a (ha : a ∈ names) hga =>
        markLoop_first (G := G) names (fun a _ hg => hG a hg) hn hf hp hm (fun a _ hg hv' => hv a hv' hg) (a := a) ha hga
      refine ⟨names.filter (fun a => decide (G a)) ++ us, as, ds,
        ⟨fun a ha hg => List.mem_append_left _ (List.mem_filter.2 ⟨ha, by simpa using hg⟩), fun b hb => ?_, r2, r3⟩, fun b hb => ?_, fun i => ?_⟩
      · rcases List.mem_append.1 hb with hb | hb
        · exact .visible (hG b (by simpa using (List.mem_filter.1 hb).2))
        · exact r1 b hb
      · rw [List.append_assoc, List.append_assoc, List.mem_append] at hb
        rcases hb with hb | hb
        · exact (List.mem_filter.1 hb).1
        · exact g2 b (by rw [List.append_assoc]; exact hb)
      · have g3 := g3 i
        by_cases e : ∃ a ∈ names, G a ∧ q.place a = i
        · obtain ⟨a, ha, hga, rfl⟩ := e
          obtain ⟨l, k1, k2⟩ := key a ha hga
          rw [k1] at g3 ⊢
          cases hq : q.lines[q.place a]? with
          | none => rw [hq] at g3; cases g3
          | some m =>
            rw [hq] at g3
            simp only [Option.map_some, Option.some.injEq, Prod.mk.injEq, eq_iff_iff] at g3 ⊢
            refine ⟨iff_of_true k2 (.inr ⟨a, List.mem_append_left _ (List.mem_filter.2 ⟨ha, by simpa using hga⟩), rfl⟩), g3.2⟩
        · rw [g3]
          cases q.lines[i]? with
          | none => rfl
          | some m =>
            have : (∃ a ∈ names.filter (fun a => decide (G a)) ++ us, q.place a = i) ↔ ∃ a ∈ us, q.place a = i := by
              constructor
              · rintro ⟨a, ha, hpa⟩
                rcases List.mem_append.1 ha with ha | ha
                · obtain ⟨x1, x2⟩ := List.mem_filter.1 ha
                  exact (e ⟨a, x1, by simpa using x2, hpa⟩).elim
                · exact ⟨a, ha, hpa⟩
              · rintro ⟨a, ha, hpa⟩
                exact ⟨a, List.mem_append_right _ ha, hpa⟩
            simp only [Option.map_some, this]
  exact ⟨us, as, ds, ms, fun a ha => h1 a (hperm.mem_iff.2 ha), h2, h4, h5, h6⟩

end AsmParser
