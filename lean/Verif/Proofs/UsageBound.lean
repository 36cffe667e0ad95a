import Verif.Proofs.UsageMarks

/-! How many labels the usage analysis finds in use, for C40. -/

namespace AsmParser

/-- A label that is in use by itself: exported, or code outside functions refers to it. -/
def Root (g : Usage) (a : Str) : Prop := a ∈ g.usercode ∨ CodeRef g a []

/-- The answer adds to the labels `u` seen; if it is positive, there is a root that is not in `v`. -/
def Spends (g : Usage) (v u : List Str) (r : Bool × List Str) : Prop :=
  (∀ x ∈ u, x ∈ r.2) ∧ (r.1 = true → ∃ x, Root g x ∧ x ∉ v ∧ x ∈ r.2)

theorem anyRef_spends {g : Usage} {q : Str → List Str → Option (Bool × List Str)} {rs v w u : List Str} {r : Bool × List Str}
    (hq : ∀ a ∈ rs, ∀ u, (∀ x ∈ w, x ∈ u) → ∀ r, q a u = some r → Spends g v u r) (hu : ∀ x ∈ w, x ∈ u)
    (h : anyRef q rs u = some r) : Spends g v u r := by
  induction rs generalizing u r with
  | nil =>
    simp only [anyRef, Option.some.injEq] at h
    subst h
    exact ⟨fun _ h => h, fun h => by cases h⟩
  | cons a rs ih =>
    unfold anyRef at h
    split at h
    · cases h
    · rename_i u' he
      simp only [Option.some.injEq] at h
      subst h
      exact hq a (by simp) u hu _ he
    · rename_i u' he
      obtain ⟨h1, -⟩ := hq a (by simp) u hu _ he
      obtain ⟨h2, h3⟩ := ih (fun a ha => hq a (by simp [ha])) (fun x hx => h1 x (hu x hx)) h
      exact ⟨fun x hx => h2 x (h1 x hx), h3⟩

theorem refsOf_nil (a : Str) : refsOf [] a = [] := rfl

theorem run_nil (o : Order) (k : OrdKey) : o.run k [] = [] := List.Perm.eq_nil (o.perm k [])

/-- Without references from data, every positive answer uses up a root. -/
theorem isUsed_spends {g : Usage} {o : Order} (hd : ∀ a, refsOf g.dataUsed a = []) (hw : g.weaklyUsed = []) {n : Nat} {a : Str} {d : Nat} (h0 : d ≠ 0)
    {v : List Str} {r : Bool × List Str} (h : isUsed g o n a d v = some r) : Spends g v v r := by
  induction n generalizing a d v r with
  | zero => cases h
  | succ n ih =>
    unfold isUsed at h
    simp only [if_neg h0, hd, hw, refsOf_nil, run_nil, anyRef] at h
    split at h
    · simp only [Option.some.injEq] at h
      subst h
      exact ⟨fun _ h => h, fun h => by cases h⟩
    · rename_i hc
      have hc : a ∉ v := by simpa using hc
      split at h
      · rename_i hu
        simp only [Option.some.injEq] at h
        subst h
        exact ⟨fun x hx => by simp [hx], fun _ => ⟨a, .inl (by simpa using hu), hc, by simp⟩⟩
      · have key : ∀ r, anyRef (fun ref vis => if ref.isEmpty = true then some (true, vis) else isUsed g o n ref (d + 1) vis)
            (o.run (.used a) (refsOf g.used a)) (a :: v) = some r → Spends g v (a :: v) r := by
          intro r hr
          refine anyRef_spends (w := a :: v) (fun b hb u hu r hr => ?_) (fun _ h => h) hr
          split at hr
          · rename_i he
            simp only [Option.some.injEq] at hr
            subst hr
            have he : b = [] := List.isEmpty_iff.1 he
            subst he
            exact ⟨fun _ h => h, fun _ => ⟨a, .inr (refsOf_refers (mem_run_order.1 hb)), hc, hu a (by simp)⟩⟩
          · obtain ⟨h1, h2⟩ := ih (by omega) hr
            refine ⟨h1, fun ht => ?_⟩
            obtain ⟨x, g1, g2, g3⟩ := h2 ht
            exact ⟨x, g1, fun hx => g2 (hu x (by simp [hx])), g3⟩
        split at h
        · cases h
        · rename_i v2 he
          simp only [Option.some.injEq] at h
          subst h
          obtain ⟨h1, h2⟩ := key _ he
          exact ⟨fun x hx => h1 x (by simp [hx]), h2⟩
        · rename_i v2 he
          obtain ⟨h1, -⟩ := key _ he
          have : r = (false, v2.filter (· != a)) := by
            split at h <;> simp only [Option.some.injEq] at h <;> exact h.symm
          subst this
          refine ⟨fun x hx => ?_, fun h => by cases h⟩
          rw [List.mem_filter]
          refine ⟨h1 x (by simp [hx]), ?_⟩
          simp only [bne_iff_ne]
          rintro rfl
          exact hc hx

theorem aliasUsed_spends {g : Usage} {o : Order} (hd : ∀ a, refsOf g.dataUsed a = []) (hw : g.weaklyUsed = []) {n : Nat} {a : Str}
    {v : List Str} {r : Bool × List Str} (h : isUsedThroughAlias g o n a v = some r) : Spends g v v r := by
  unfold isUsedThroughAlias at h
  split at h
  · exact isUsed_spends hd hw (by simp) h
  · simp only [Option.some.injEq] at h
    subst h
    exact ⟨fun _ h => h, fun h => by cases h⟩

/-- A line is marked as used, at the cost of a root, or not marked. -/
theorem markLine_spends {g : Usage} {o : Order} (hd : ∀ a, refsOf g.dataUsed a = []) (hw : g.weaklyUsed = []) {n : Nat} {l l' : TLine} {v v' : List Str}
    (h : markLine g o n l v = some (l', v')) :
    (∀ x ∈ v, x ∈ v') ∧ (l'.isUsed = l.isUsed ∨ ∃ x, Root g x ∧ x ∉ v ∧ x ∈ v') := by
  unfold markLine at h
  split at h
  · cases h
  · rename_i v2 he
    simp only [Option.some.injEq, Prod.mk.injEq] at h
    obtain ⟨rfl, rfl⟩ := h
    obtain ⟨h1, h2⟩ := isUsed_spends hd hw (by simp) he
    exact ⟨h1, .inr (h2 rfl)⟩
  · rename_i v2 he
    obtain ⟨h1, -⟩ := isUsed_spends hd hw (by simp) he
    have hdata : ∀ v, isDataUsedThroughAlias g o n l.label v = some (false, v) := by
      intro v
      unfold isDataUsedThroughAlias
      rw [hd, run_nil]
      rfl
    rw [hdata] at h
    simp only at h
    split at h
    · cases h
    · rename_i v3 ha
      simp only [Option.some.injEq, Prod.mk.injEq] at h
      obtain ⟨rfl, rfl⟩ := h
      obtain ⟨h3, -⟩ := aliasUsed_spends hd hw ha
      exact ⟨fun x hx => h3 x (h1 x hx), .inl rfl⟩
    · rename_i v3 ha
      simp only [Option.some.injEq, Prod.mk.injEq] at h
      obtain ⟨rfl, rfl⟩ := h
      obtain ⟨h3, -⟩ := aliasUsed_spends hd hw ha
      exact ⟨fun x hx => h3 x (h1 x hx), .inl rfl⟩

theorem countP_set {α : Type} (P : α → Bool) (ls : List α) (i : Nat) (x y : α) (h : ls[i]? = some x) :
    (ls.set i y).countP P + (if P x then 1 else 0) = ls.countP P + (if P y then 1 else 0) := by
  induction ls generalizing i with
  | nil => simp at h
  | cons z ls ih =>
    cases i with
    | zero =>
      simp only [List.getElem?_cons_zero, Option.some.injEq] at h
      subst h
      rw [List.set_cons_zero, List.countP_cons, List.countP_cons]
      omega
    | succ i =>
      rw [List.getElem?_cons_succ] at h
      have := ih i h
      rw [List.set_cons_succ, List.countP_cons, List.countP_cons]
      omega

/-- Marking: there are at least as many roots as marked lines. -/
theorem markLoop_spends {o : Order} {n : Nat} (names : List Str) {p p' : TParser} {v v' : List Str} (hd : ∀ a, refsOf p.usage.dataUsed a = [])
    (hw : p.usage.weaklyUsed = []) (h : p.markLoop o n names v = some (p', v'))
    (hv : ∃ rs : List Str, rs.Nodup ∧ (∀ r ∈ rs, Root p.usage r ∧ r ∈ v) ∧ p.lines.countP (·.isUsed) ≤ rs.length) :
    ∃ rs : List Str, rs.Nodup ∧ (∀ r ∈ rs, Root p.usage r) ∧ p'.lines.countP (·.isUsed) ≤ rs.length := by
  induction names generalizing p v with
  | nil =>
    simp only [TParser.markLoop, Option.some.injEq, Prod.mk.injEq] at h
    obtain ⟨rfl, -⟩ := h
    obtain ⟨rs, h1, h2, h3⟩ := hv
    exact ⟨rs, h1, fun r hr => (h2 r hr).1, h3⟩
  | cons a names ih =>
    unfold TParser.markLoop at h
    simp only at h
    split at h
    · exact ih (p := { p with ub := true }) hd hw h hv
    · rename_i l hl
      split at h
      · cases h
      · rename_i l' v2 hm
        refine ih (p := { p with lines := p.lines.set ((p.labelsDefined.lookup a).getD 0 - 1) l' }) hd hw h ?_
        obtain ⟨h1, h2⟩ := markLine_spends hd hw hm
        obtain ⟨rs, g1, g2, g3⟩ := hv
        have hc := countP_set (·.isUsed) p.lines _ l l' hl
        rcases h2 with h2 | ⟨x, x1, x2, x3⟩
        · refine ⟨rs, g1, fun r hr => ⟨(g2 r hr).1, h1 r (g2 r hr).2⟩, ?_⟩
          show (p.lines.set _ l').countP _ ≤ _
          rw [h2] at hc
          omega
        · refine ⟨x :: rs, List.nodup_cons.2 ⟨fun hx => x2 (g2 x hx).2, g1⟩, fun r hr => ?_, ?_⟩
          · rcases List.mem_cons.1 hr with rfl | hr
            · exact ⟨x1, x3⟩
            · exact ⟨(g2 r hr).1, h1 r (g2 r hr).2⟩
          · show (p.lines.set _ l').countP _ ≤ _
            rw [List.length_cons]
            have : (if l'.isUsed = true then 1 else 0) ≤ 1 := by split <;> omega
            omega

/-- The labels in the output are at most as many as the roots. -/
theorem result_spends {L : Locale} {f : Filter} {s : Str} {p : TParser} (h : TextResult L f s p) (hu : f.unusedLabels = true)
    (hd : ∀ a b, ¬ DataRef (references L f s) a b) :
    ∃ rs : List Str, rs.Nodup ∧ (∀ r ∈ rs, Root (references L f s) r) ∧ p.lines.countP (·.isLabel) ≤ rs.length := by
  have hlab : ∀ l ∈ p.lines, l.isLabel = true → l.isUsed = true := by
    intro l hl hlab
    obtain ⟨h1, h2⟩ := result_label h hu l hl hlab
    refine h2.elim id fun h2 => ?_
    obtain ⟨r, a, h3, -⟩ := h1.data h2
    exact (hd _ _ h3).elim
  obtain ⟨o, n, v, v', h⟩ := h
  have hr := usage_read L f s
  have hw := references_weak L f s
  have hd : ∀ a, refsOf (references L f s).dataUsed a = [] := fun a => by
    rw [List.eq_nil_iff_forall_not_mem]
    exact fun b hb => hd a b (.inl (refsOf_refers hb))
  unfold references at hd hw ⊢
  unfold TParser.fromStream at h
  generalize (TParser.init f).readStream L s = q at h hr hd hw ⊢
  split at h
  · cases h
  · rename_i q2 v2 hm
    simp only [Option.some.injEq, Prod.mk.injEq] at h
    obtain ⟨rfl, -⟩ := h
    obtain ⟨rs, h1, h2, h3⟩ := markLoop_spends _ (p := q.filterNonLabels) hd hw hm ⟨[], by simp, by simp, by
      have : q.filterNonLabels.lines.countP (·.isUsed) = 0 := by
        rw [List.countP_eq_zero]
        intro l hl
        rw [(hr.fresh l hl).flags.1]
        simp
      omega⟩
    refine ⟨rs, h1, h2, Nat.le_trans ?_ h3⟩
    obtain ⟨sub, s1, s2, -⟩ := removeLoop_all q2 q2.lines
    have s2 : q2.removeUnused.lines = _ := s2
    rw [s2] at hlab ⊢
    refine Nat.le_trans ?_ (s1.countP_le)
    rw [List.countP_map]
    refine List.countP_mono_left fun l hl hx => ?_
    have hx : (q2.finishKept l).isLabel = true := hx
    have := hlab _ (List.mem_map.2 ⟨l, hl, rfl⟩) hx
    obtain ⟨src, e⟩ := finishKept_frame q2 l
    rw [e] at this
    exact this

theorem nodup_length_le {rs roots : List Str} (h : rs.Nodup) (hs : ∀ r ∈ rs, r ∈ roots) : rs.length ≤ roots.length := by
  induction rs generalizing roots with
  | nil => simp
  | cons r rs ih =>
    obtain ⟨h1, h2⟩ := List.nodup_cons.1 h
    have := ih (roots := roots.erase r) h2 fun x hx => by
      rw [List.mem_erase_of_ne]
      · exact hs x (by simp [hx])
      · rintro rfl; exact h1 hx
    have hr := List.length_erase_of_mem (hs r (by simp))
    have hp := List.length_pos_of_mem (hs r (by simp))
    rw [List.length_cons]
    omega

end AsmParser
