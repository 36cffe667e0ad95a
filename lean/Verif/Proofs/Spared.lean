import Verif.Proofs.Chains
import Verif.Proofs.Loss

/-
Helper lemmas for C75: a label that no question about another label can take.
-/

namespace AsmParser

/-- The label `a` is visible, has its own address, and is only asked about by questions about visible labels.  Only questions about
labels in `S` are asked. -/
structure Spared (g : Usage) (S : Str → Prop) (a : Str) : Prop where
  visible : a ∈ g.usercode
  code : ∀ b, S b → CodeRef g b a → b = a ∨ b ∈ g.usercode
  data : ∀ b, S b → DataRef g b a → b = a ∨ b ∈ g.usercode
  alias : ∀ b, (b, a) ∉ g.aliased
  codeIn : ∀ b c, CodeRef g b c → S c
  dataIn : ∀ b c, DataRef g b c → S c
  aliasIn : ∀ b c, (b, c) ∈ g.aliased → S c

/-- Questions about other labels do not take the label. -/
theorem isUsed_spares {g : Usage} {S : Str → Prop} {a : Str} (hg : Spared g S a) {o : Order} {n : Nat} {b : Str} {d : Nat} {v v' : List Str} {r : Bool}
    (h : isUsed g o n b d v = some (r, v')) (hs : S b) (hb : b ≠ a) (hv : a ∉ v) : a ∉ v' := by
  induction n generalizing b d v v' r with
  | zero => simp [isUsed] at h
  | succ n ih =>
    unfold isUsed at h
    simp only at h
    have hv0 : a ∉ (if d = 0 then [] else v) := by split <;> simp [hv]
    generalize (if d = 0 then [] else v) = w at h hv0
    have hw : a ∉ b :: w := by
      rw [List.mem_cons, not_or]
      exact ⟨fun e => hb e.symm, hv0⟩
    split at h
    · simp only [Option.some.injEq, Prod.mk.injEq] at h
      rw [← h.2]; exact hv0
    · split at h
      · simp only [Option.some.injEq, Prod.mk.injEq] at h
        rw [← h.2]; exact hw
      · rename_i hu
        have hu : b ∉ g.usercode := by simpa using hu
        have hf : ∀ u : List Str, a ∉ u → a ∉ u.filter (· != b) := fun u hu h => hu (List.mem_filter.1 h).1
        have c1 : ∀ {t u}, anyRef (fun ref vis => if ref.isEmpty then some (true, vis) else isUsed g o n ref (d + 1) vis)
            (o.run (.used b) (refsOf g.used b)) (b :: w) = some (t, u) → a ∉ u := by
          intro t u hh
          refine anyRef_inv (P := fun v => a ∉ v) (fun r hr v t v' hv hq => ?_) hw hh
          split at hq
          · simp only [Option.some.injEq, Prod.mk.injEq] at hq
            rw [← hq.2]; exact hv
          · refine ih hq (hg.codeIn _ _ (refsOf_refers (mem_run_order.1 hr))) ?_ hv
            rintro rfl
            rcases hg.code b hs (refsOf_refers (mem_run_order.1 hr)) with e | e
            · exact hb e
            · exact hu e
        have c2 : ∀ {k : OrdKey} {m : List (Str × List Str)} {u u' : List Str} {t}, (∀ r, r ∈ refsOf m b → DataRef g b r) → a ∉ u →
            anyRef (fun ref vis => isUsed g o n ref (d - 1) vis) (o.run k (refsOf m b)) u = some (t, u') → a ∉ u' := by
          intro k m u u' t hm hu' hh
          refine anyRef_inv (P := fun v => a ∉ v) (fun r hr v t v' hv hq => ih hq (hg.dataIn _ _ (hm _ (mem_run_order.1 hr))) ?_ hv) hu' hh
          rintro rfl
          rcases hg.data b hs (hm _ (mem_run_order.1 hr)) with e | e
          · exact hb e
          · exact hu e
        split at h
        · cases h
        · rename_i h1
          simp only [Option.some.injEq, Prod.mk.injEq] at h
          rw [← h.2]; exact c1 h1
        · rename_i h1
          have g1 := c1 h1
          split at h
          · split at h
            · cases h
            · rename_i h2
              simp only [Option.some.injEq, Prod.mk.injEq] at h
              rw [← h.2]; exact c2 (fun r hr => .inr (refsOf_refers hr)) g1 h2
            · rename_i h2
              have g2 := c2 (fun r hr => .inr (refsOf_refers hr)) g1 h2
              split at h
              · cases h
              · rename_i h3
                simp only [Option.some.injEq, Prod.mk.injEq] at h
                rw [← h.2]; exact c2 (fun r hr => .inl (refsOf_refers hr)) g2 h3
              · rename_i h3
                simp only [Option.some.injEq, Prod.mk.injEq] at h
                rw [← h.2]; exact hf _ (c2 (fun r hr => .inl (refsOf_refers hr)) g2 h3)
          · simp only [Option.some.injEq, Prod.mk.injEq] at h
            rw [← h.2]; exact hf _ g1

theorem isUsedThroughAlias_spares {g : Usage} {S : Str → Prop} {a : Str} (hg : Spared g S a) {o : Order} {n : Nat} {b : Str} {v v' : List Str} {r : Bool}
    (h : isUsedThroughAlias g o n b v = some (r, v')) (hv : a ∉ v) : a ∉ v' := by
  unfold isUsedThroughAlias at h
  split at h
  · rename_i c hc
    refine isUsed_spares hg h (hg.aliasIn _ _ (mem_of_lookup_str hc)) ?_ hv
    rintro rfl
    exact hg.alias b (mem_of_lookup_str hc)
  · simp only [Option.some.injEq, Prod.mk.injEq] at h
    rw [← h.2]; exact hv

/-- Neither do the questions about the line of another label. -/
theorem markLine_spares {g : Usage} {S : Str → Prop} {a : Str} (hg : Spared g S a) {o : Order} {n : Nat} {l l' : TLine} {v v' : List Str}
    (h : markLine g o n l v = some (l', v')) (hs : S l.label) (hb : l.label ≠ a) (hv : a ∉ v) : a ∉ v' := by
  unfold markLine at h
  split at h
  · cases h
  · rename_i hu
    simp only [Option.some.injEq, Prod.mk.injEq] at h
    rw [← h.2]; exact isUsed_spares hg hu hs hb hv
  · rename_i hu
    have hv := isUsed_spares hg hu hs hb hv
    have h2 : ∀ {t u}, isDataUsedThroughAlias g o n l.label _ = some (t, u) → a ∉ u := fun hh =>
      anyRef_inv (P := fun v => a ∉ v) (fun r _ v b v' hv h => isUsedThroughAlias_spares hg h hv) hv hh
    split at h
    · cases h
    · rename_i hu
      simp only [Option.some.injEq, Prod.mk.injEq] at h
      rw [← h.2]; exact h2 hu
    · rename_i hu
      have hv := h2 hu
      split at h
      · cases h
      · rename_i hu
        simp only [Option.some.injEq, Prod.mk.injEq] at h
        rw [← h.2]; exact isUsedThroughAlias_spares hg hu hv
      · rename_i hu
        simp only [Option.some.injEq, Prod.mk.injEq] at h
        rw [← h.2]; exact isUsedThroughAlias_spares hg hu hv

/-- The label is found in use when its turn comes. -/
theorem isUsed_visible {g : Usage} {a : Str} (hg : a ∈ g.usercode) {o : Order} {n : Nat} {v v' : List Str} {r : Bool}
    (h : isUsed g o n a 1 v = some (r, v')) (hv : a ∉ v) : r = true := by
  cases n with
  | zero => simp [isUsed] at h
  | succ n =>
    unfold isUsed at h
    simp only [Nat.one_ne_zero, if_false] at h
    rw [if_neg (by simpa using hv), if_pos (by simpa using hg)] at h
    simp only [Option.some.injEq, Prod.mk.injEq] at h
    exact h.1.symm

theorem markLine_visible {g : Usage} {o : Order} {n : Nat} {l l' : TLine} {v v' : List Str} (hg : l.label ∈ g.usercode)
    (h : markLine g o n l v = some (l', v')) (hv : l.label ∉ v) : l'.isUsed = true := by
  unfold markLine at h
  split at h
  · cases h
  · simp only [Option.some.injEq, Prod.mk.injEq] at h
    rw [← h.1]
  · rename_i hu
    cases isUsed_visible hg hu hv

/-- A line that is marked stays marked. -/
theorem markLoop_stays {o : Order} {n : Nat} (names : List Str) {p p' : TParser} {v v' : List Str} (h : p.markLoop o n names v = some (p', v'))
    {i : Nat} (hi : ∃ l, p.lines[i]? = some l ∧ l.isUsed = true) : ∃ l, p'.lines[i]? = some l ∧ l.isUsed = true := by
  induction names generalizing p v with
  | nil =>
    simp only [TParser.markLoop, Option.some.injEq, Prod.mk.injEq] at h
    rw [← h.1]; exact hi
  | cons a names ih =>
    unfold TParser.markLoop at h
    simp only at h
    split at h
    · exact ih (p := { p with ub := true }) h hi
    · rename_i line hline
      split at h
      · cases h
      · rename_i line' w hm
        refine ih (p := { p with lines := p.lines.set _ line' }) h ?_
        obtain ⟨l, h1, h2⟩ := hi
        by_cases e : (p.labelsDefined.lookup a).getD 0 - 1 = i
        · refine ⟨line', ?_, ?_⟩
          · rw [e, List.getElem?_set_self (List.getElem?_eq_some_iff.1 h1).1]
          · rw [e, h1] at hline
            cases hline
            exact (markLine_same hm).2.2.1 h2
        · exact ⟨l, by rw [List.getElem?_set_ne e]; exact h1, h2⟩

/-- The line of the label is marked. -/
theorem markLoop_spares {a : Str} {S : Str → Prop} {o : Order} {n : Nat} (names : List Str) {p p' : TParser} {v v' : List Str}
    (hg : Spared p.usage S a) (hS : ∀ b ∈ names, S b)
    (hp : Points p names) (h : p.markLoop o n names v = some (p', v')) (hv : a ∉ v) (ha : a ∈ names) :
    ∃ l, p'.lines[p.place a]? = some l ∧ l.isUsed = true := by
  induction names generalizing p v with
  | nil => cases ha
  | cons b names ih =>
    obtain ⟨l, hl, hlab, hname⟩ := hp b (List.mem_cons_self ..)
    unfold TParser.markLoop at h
    simp only [hl] at h
    split at h
    · cases h
    · rename_i l' w hm
      obtain ⟨s1, s2, -, -, -⟩ := markLine_same hm
      by_cases e : b = a
      · subst e
        subst hname
        exact markLoop_stays names h ⟨l', List.getElem?_set_self (List.getElem?_eq_some_iff.1 hl).1, markLine_visible hg.visible hm hv⟩
      · exact ih (p := { p with lines := p.lines.set _ l' }) hg (fun x hx => hS x (List.mem_cons_of_mem _ hx))
          ((show Points p names from fun x hx => hp x (List.mem_cons_of_mem _ hx)).set hl s1 s2) h (markLine_spares hg hm (hname ▸ hS b (List.mem_cons_self ..)) (hname ▸ e) hv)
          ((List.mem_cons.1 ha).resolve_left fun e' => e e'.symm)

/-- The lines of the result, for all inputs, with a label that is found in use. -/
theorem result_spares {L : Locale} {f : Filter} {s : Str} {o : Order} {n : Nat} {v v' : List Str} {p : TParser}
    (h : (TParser.init f).fromStream L o n s v = some (p, v')) {S : Str → Prop} {a : Str} (hg : Spared (references L f s) S a)
    (hS : ∀ b ∈ ((TParser.init f).readStream L s).labelsDefined.map (·.1), S b) (hv : a ∉ v)
    (ha : a ∈ ((TParser.init f).readStream L s).labelsDefined.map (·.1)) :
    ∃ (us as ds : List Str) (ms : List TLine), a ∈ us ∧ ((∀ a ∈ us, Reachable (references L f s) a) ∧
      (∀ a ∈ as, ∃ b, (a, b) ∈ (references L f s).aliased ∧ Reachable (references L f s) b) ∧
      (∀ a ∈ ds, ∃ r b, DataRef (references L f s) a r ∧ (r, b) ∈ (references L f s).aliased ∧ Reachable (references L f s) b)) ∧
      ms.map TLine.noUse = (heldLines L f s).map TLine.noUse ∧
      (∀ x l y, ms = x ++ l :: y → (l.isUsed = true ↔ MarkedIn us l y) ∧ (l.isUsedThroughAlias = true ↔ MarkedIn as l y) ∧
        (l.isUsedDataThroughAlias = true ↔ MarkedIn ds l y)) ∧
      ∀ drop : List TLine → TLine → Bool, (∀ b l, drop b l = true ↔ Removed f b l) →
        p.lines = (remaining drop [] ms).map p.finishKept := by
  obtain ⟨names, us, as, ds, ms, -, ⟨h1, h2⟩, -, h4, h5, h6⟩ := result_marks_of h (fun _ us as ds => a ∈ us ∧ (∀ a ∈ us, Reachable (references L f s) a) ∧
      (∀ a ∈ as, ∃ b, (a, b) ∈ (references L f s).aliased ∧ Reachable (references L f s) b) ∧
      (∀ a ∈ ds, ∃ r b, DataRef (references L f s) a r ∧ (r, b) ∈ (references L f s).aliased ∧ Reachable (references L f s) b))
    fun q p' v' names e1 e2 hp hm => by
      rw [← e1] at hg ⊢
      have hn : a ∈ names := by rw [e2]; exact (o.perm _ _).mem_iff.2 ha
      obtain ⟨us, as, ds, ⟨r1, r2, r3⟩, g2, g3⟩ := markLoop_marks names hp hm
      obtain ⟨l, k1, k2⟩ := markLoop_spares names hg (fun b hb => hS b (by rw [e2] at hb; exact (o.perm _ _).mem_iff.1 hb)) hp hm hv hn
      refine ⟨a :: us, as, ds, ⟨by simp, fun b hb => ?_, r2, r3⟩, fun b hb => ?_, fun i => ?_⟩
      · rcases List.mem_cons.1 hb with rfl | hb
        · exact .visible hg.visible
        · exact r1 b hb
      · rw [List.cons_append, List.cons_append, List.mem_cons] at hb
        rcases hb with rfl | hb
        · exact hn
        · exact g2 b hb
      · have g3 := g3 i
        by_cases e : q.place a = i
        · subst e
          rw [k1] at g3 ⊢
          cases hq : q.lines[q.place a]? with
          | none => rw [hq] at g3; cases g3
          | some m =>
            rw [hq] at g3
            simp only [Option.map_some, Option.some.injEq, Prod.mk.injEq, eq_iff_iff] at g3 ⊢
            exact ⟨by simp [k2], g3.2⟩
        · rw [g3]
          cases q.lines[i]? with
          | none => rfl
          | some m => simp [e]
  exact ⟨us, as, ds, ms, h1, h2, h4, h5, h6⟩

end AsmParser
