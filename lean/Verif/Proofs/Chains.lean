import Verif.Spec.Chains
import Verif.Proofs.UsageBound
import Verif.Proofs.Removal
import Verif.Proofs.UsageOrder

/-! The labels that the usage analysis finds in use, for C74. -/

namespace AsmParser

/-- `Chain`, for a table of references. -/
inductive GChain (g : Usage) : List Str → Str → List Str → Prop
  | exported {v a} : a ∉ v → a ∈ g.usercode → GChain g v a [a]
  | outside {v a} : a ∉ v → CodeRef g a [] → GChain g v a [a]
  | step {v a b c} : a ∉ v → a ∉ g.usercode → CodeRef g a b → b ≠ [] → GChain g (a :: v) b c → GChain g v a (a :: c)

/-- `Examined`, for a table of references. -/
inductive GExamined (g : Usage) : List Str → List Str → List Str → List Str → Prop
  | done {v} : GExamined g v [] [] []
  | used {v a c names us as} : GChain g v a c → GExamined g (c.reverse ++ v) names us as → GExamined g v (a :: names) (a :: us) as
  | alias {v a b c names us as} : (∀ c, ¬ GChain g v a c) → g.aliased.lookup a = some b → GChain g v b c →
      GExamined g (c.reverse ++ v) names us as → GExamined g v (a :: names) us (a :: as)
  | unused {v a names us as} : (∀ c, ¬ GChain g v a c) → (∀ b, g.aliased.lookup a = some b → ∀ c, ¬ GChain g v b c) →
      GExamined g v names us as → GExamined g v (a :: names) us as

theorem GChain.reachable {g : Usage} {v : List Str} {a : Str} {c : List Str} (h : GChain g v a c) : CodeReachable g v a := by
  induction h with
  | exported h1 h2 => exact .visible h1 h2
  | outside h1 h2 => exact .outside h1 h2
  | step h1 _ h2 _ _ ih => exact .code h1 h2 (ih.anti fun x hx => List.mem_cons_of_mem _ hx)

/-- The loops, if no answer but a positive one changes the labels seen. -/
theorem anyRef_same {q : Str → List Str → Option (Bool × List Str)} {rs u : List Str} {P : Bool × List Str → Prop} {r : Bool × List Str}
    (hq : ∀ b ∈ rs, ∀ r, q b u = some r → r = (false, u) ∨ P r ∧ r.1 = true) (h : anyRef q rs u = some r) :
    r = (false, u) ∨ P r ∧ r.1 = true := by
  induction rs with
  | nil =>
    simp only [anyRef, Option.some.injEq] at h
    exact .inl h.symm
  | cons b rs ih =>
    unfold anyRef at h
    split at h
    · cases h
    · rename_i u' he
      simp only [Option.some.injEq] at h
      subst h
      rcases hq b (by simp) _ he with e | e
      · cases e
      · exact .inr e
    · rename_i u' he
      rcases hq b (by simp) _ he with e | e
      · simp only [Prod.mk.injEq, true_and] at e
        subst e
        exact ih (fun b hb => hq b (by simp [hb])) h
      · exact absurd e.2 (by simp)

/-- The labels `S` are closed under references, and data refers to none of them. -/
structure CodeOnly (g : Usage) (S : Str → Prop) : Prop where
  closed : ∀ a b, S a → CodeRef g a b → b = [] ∨ S b
  data : ∀ a, S a → refsOf g.dataUsed a = []
  weak : g.weaklyUsed = []
  keys : (g.used.map (·.1)).Nodup
  alias : ∀ a b, g.aliased.lookup a = some b → S b

/-- The answer to one question: a chain, which is then taken, or nothing changes. -/
theorem isUsed_chain {g : Usage} {S : Str → Prop} (hg : CodeOnly g S) {o : Order} {n : Nat} {a : Str} {d : Nat} (h0 : d ≠ 0) (ha : S a)
    {v : List Str} {r : Bool × List Str} (h : isUsed g o n a d v = some r) :
    r = (false, v) ∨ (∃ c, GChain g v a c ∧ r.2 = c.reverse ++ v) ∧ r.1 = true := by
  induction n generalizing a d v r with
  | zero => cases h
  | succ n ih =>
    unfold isUsed at h
    simp only [if_neg h0, hg.data a ha, hg.weak, refsOf_nil, run_nil, anyRef] at h
    split at h
    · simp only [Option.some.injEq] at h
      exact .inl h.symm
    · rename_i hc
      have hc : a ∉ v := by simpa using hc
      split at h
      · rename_i hu
        simp only [Option.some.injEq] at h
        subst h
        exact .inr ⟨⟨[a], .exported hc (by simpa using hu), by simp⟩, rfl⟩
      · rename_i hu
        have hu : a ∉ g.usercode := by simpa using hu
        have key : ∀ r, anyRef (fun ref vis => if ref.isEmpty = true then some (true, vis) else isUsed g o n ref (d + 1) vis)
            (o.run (.used a) (refsOf g.used a)) (a :: v) = some r →
            r = (false, a :: v) ∨ (∃ c, GChain g v a c ∧ r.2 = c.reverse ++ v) ∧ r.1 = true := by
          intro r hr
          refine anyRef_same (P := fun r => ∃ c, GChain g v a c ∧ r.2 = c.reverse ++ v) (fun b hb r hr => ?_) hr
          have hb := refsOf_refers (mem_run_order.1 hb)
          split at hr
          · rename_i he
            simp only [Option.some.injEq] at hr
            subst hr
            have he : b = [] := List.isEmpty_iff.1 he
            subst he
            exact .inr ⟨⟨[a], .outside hc hb, by simp⟩, rfl⟩
          · rename_i he
            have he : b ≠ [] := fun e => he (List.isEmpty_iff.2 e)
            rcases ih (by omega) ((hg.closed a b ha hb).resolve_left he) hr with e | ⟨⟨c, h1, h2⟩, h3⟩
            · exact .inl e
            · exact .inr ⟨⟨a :: c, .step hc hu hb he h1, by rw [h2]; simp⟩, h3⟩
        split at h
        · cases h
        · rename_i v2 he
          simp only [Option.some.injEq] at h
          subst h
          rcases key _ he with e | e
          · cases e
          · exact .inr e
        · rename_i v2 he
          rcases key _ he with e | e
          · simp only [Prod.mk.injEq, true_and] at e
            subst e
            rw [filter_ne_self hc] at h
            left
            split at h <;> simp only [Option.some.injEq] at h <;> exact h.symm
          · exact absurd e.2 (by simp)

theorem isUsed_exact {g : Usage} {S : Str → Prop} (hg : CodeOnly g S) {o : Order} {n : Nat} {a : Str} (ha : S a)
    {v : List Str} {r : Bool × List Str} (h : isUsed g o n a 1 v = some r) :
    (r = (false, v) ∧ ∀ c, ¬ GChain g v a c) ∨ ∃ c, GChain g v a c ∧ r = (true, c.reverse ++ v) := by
  rcases isUsed_chain hg (by simp) ha h with e | ⟨⟨c, h1, h2⟩, h3⟩
  · refine .inl ⟨e, fun c hc => ?_⟩
    rw [e] at h
    have := isUsed_complete hg.keys h
    rw [startVis_pos _ (by omega)] at this
    exact this hc.reachable
  · exact .inr ⟨c, h1, Prod.ext h3 h2⟩

theorem markLine_exact {g : Usage} {S : Str → Prop} (hg : CodeOnly g S) {o : Order} {n : Nat} {l l' : TLine} (ha : S l.label)
    {v v' : List Str} (h : markLine g o n l v = some (l', v')) :
    (∃ c, GChain g v l.label c ∧ v' = c.reverse ++ v ∧ l' = { l with isUsed := true }) ∨
    (∀ c, ¬ GChain g v l.label c) ∧
      ((∃ b c, g.aliased.lookup l.label = some b ∧ GChain g v b c ∧ v' = c.reverse ++ v ∧ l' = { l with isUsedThroughAlias := true }) ∨
       (∀ b, g.aliased.lookup l.label = some b → ∀ c, ¬ GChain g v b c) ∧ v' = v ∧ l' = l) := by
  unfold markLine at h
  split at h
  · cases h
  · rename_i v2 he
    simp only [Option.some.injEq, Prod.mk.injEq] at h
    obtain ⟨rfl, rfl⟩ := h
    rcases isUsed_exact hg ha he with ⟨e, -⟩ | ⟨c, h1, h2⟩
    · cases e
    · exact .inl ⟨c, h1, (Prod.mk.inj h2).2, rfl⟩
  · rename_i v2 he
    rcases isUsed_exact hg ha he with ⟨e, hno⟩ | ⟨c, h1, h2⟩
    · simp only [Prod.mk.injEq, true_and] at e
      subst e
      have hdata : ∀ v, isDataUsedThroughAlias g o n l.label v = some (false, v) := by
        intro v
        unfold isDataUsedThroughAlias
        rw [hg.data _ ha, run_nil]
        rfl
      rw [hdata] at h
      simp only at h
      refine .inr ⟨hno, ?_⟩
      unfold isUsedThroughAlias at h
      cases hal : g.aliased.lookup l.label with
      | none =>
        rw [hal] at h
        simp only [Option.some.injEq, Prod.mk.injEq] at h
        exact .inr ⟨fun b hb => by simp at hb, h.2.symm, h.1.symm⟩
      | some b =>
        rw [hal] at h
        simp only at h
        split at h
        · cases h
        · rename_i v3 ha'
          simp only [Option.some.injEq, Prod.mk.injEq] at h
          obtain ⟨rfl, rfl⟩ := h
          rcases isUsed_exact hg (hg.alias _ _ hal) ha' with ⟨e, -⟩ | ⟨c, h1, h2⟩
          · cases e
          · exact .inl ⟨b, c, rfl, h1, (Prod.mk.inj h2).2, rfl⟩
        · rename_i v3 ha'
          simp only [Option.some.injEq, Prod.mk.injEq] at h
          obtain ⟨rfl, rfl⟩ := h
          rcases isUsed_exact hg (hg.alias _ _ hal) ha' with ⟨e, h1⟩ | ⟨c, -, h2⟩
          · refine .inr ⟨fun b' hb' => ?_, (Prod.mk.inj e).2, rfl⟩
            simp only [Option.some.injEq] at hb'
            exact hb' ▸ h1
          · exact absurd (Prod.mk.inj h2).1 (by simp)
    · exact absurd (Prod.mk.inj h2).1 (by simp)

/-- Where the table says the label is defined. -/
def TParser.place (p : TParser) (a : Str) : Nat := (p.labelsDefined.lookup a).getD 0 - 1

theorem markLoop_exact {S : Str → Prop} {o : Order} {n : Nat} (names : List Str) {p p' : TParser} {v v' : List Str} (hg : CodeOnly p.usage S)
    (hS : ∀ a ∈ names, S a) (hp : Points p names) (h : p.markLoop o n names v = some (p', v')) :
    ∃ us as, GExamined p.usage v names us as ∧ (∀ a ∈ us ++ as, a ∈ names) ∧
      ∀ i : Nat, p'.lines[i]?.map (fun l => (l.isUsed = true, l.isUsedThroughAlias = true, l.isUsedDataThroughAlias = true)) =
        p.lines[i]?.map (fun l => (l.isUsed = true ∨ ∃ a ∈ us, p.place a = i, l.isUsedThroughAlias = true ∨ ∃ a ∈ as, p.place a = i,
          l.isUsedDataThroughAlias = true)) := by
  induction names generalizing p v with
  | nil =>
    simp only [TParser.markLoop, Option.some.injEq, Prod.mk.injEq] at h
    obtain ⟨rfl, -⟩ := h
    exact ⟨[], [], .done, by simp, fun i => by simp⟩
  | cons a names ih =>
    obtain ⟨l, hl, hlab, hname⟩ := hp a (List.mem_cons_self ..)
    unfold TParser.markLoop at h
    simp only [hl] at h
    split at h
    · cases h
    · rename_i l' w hm
      obtain ⟨s1, s2, -, -, -⟩ := markLine_same hm
      have hp' : Points { p with lines := p.lines.set _ l' } names :=
        (show Points p names from fun x hx => hp x (List.mem_cons_of_mem _ hx)).set hl s1 s2
      obtain ⟨us, as, h1, h2, h3⟩ := ih (p := { p with lines := p.lines.set _ l' }) hg (fun x hx => hS x (List.mem_cons_of_mem _ hx)) hp' h
      have hpl : ∀ b, ({ p with lines := p.lines.set ((p.labelsDefined.lookup a).getD 0 - 1) l' } : TParser).place b = p.place b := fun _ => rfl
      simp only [hpl] at h3
      have hset : ∀ i : Nat, (p.lines.set ((p.labelsDefined.lookup a).getD 0 - 1) l')[i]? = if p.place a = i then some l' else p.lines[i]? := by
        intro i
        show (p.lines.set (p.place a) l')[i]? = _
        by_cases e : p.place a = i
        · rw [if_pos e, ← e]
          exact List.getElem?_set_self (List.getElem?_eq_some_iff.1 hl).1
        · rw [if_neg e, List.getElem?_set_ne e]
      have hat : ∀ i : Nat, p.place a = i → p.lines[i]? = some l := fun i e => e ▸ hl
      have ha : S l.label := by rw [hname]; exact hS a List.mem_cons_self
      rcases markLine_exact hg ha hm with ⟨c, g1, g2, g3⟩ | ⟨g0, ⟨b, c, g4, g1, g2, g3⟩ | ⟨g1, g2, g3⟩⟩ <;> rw [hname] at *
      · refine ⟨a :: us, as, .used g1 (g2 ▸ h1), ?_, fun i => ?_⟩
        · simp only [List.cons_append, List.mem_cons]
          exact fun x hx => hx.imp_right (h2 x)
        · rw [h3 i, show ({ p with lines := p.lines.set ((p.labelsDefined.lookup a).getD 0 - 1) l' } : TParser).lines[i]? = _ from hset i]
          by_cases e : p.place a = i
          · rw [if_pos e, hat i e, g3]
            simp [e]
          · rw [if_neg e]
            simp [e]
      · refine ⟨us, a :: as, .alias g0 g4 g1 (g2 ▸ h1), ?_, fun i => ?_⟩
        · simp only [List.mem_append, List.mem_cons]
          intro x hx
          rcases hx with hx | hx | hx
          · exact .inr (h2 x (by simp [hx]))
          · exact .inl hx
          · exact .inr (h2 x (by simp [hx]))
        · rw [h3 i, show ({ p with lines := p.lines.set ((p.labelsDefined.lookup a).getD 0 - 1) l' } : TParser).lines[i]? = _ from hset i]
          by_cases e : p.place a = i
          · rw [if_pos e, hat i e, g3]
            simp [e]
          · rw [if_neg e]
            simp [e]
      · refine ⟨us, as, .unused g0 g1 (g2 ▸ h1), fun x hx => List.mem_cons_of_mem _ (h2 x hx), fun i => ?_⟩
        rw [h3 i, show ({ p with lines := p.lines.set ((p.labelsDefined.lookup a).getD 0 - 1) l' } : TParser).lines[i]? = _ from hset i]
        by_cases e : p.place a = i
        · rw [if_pos e, hat i e, g3]
        · rw [if_neg e]

/-- The line is marked as one of the labels: it is the last definition of it. -/
def MarkedIn (us : List Str) (l : TLine) (later : List TLine) : Prop :=
  l.isLabel = true ∧ l.label ∈ us ∧ ∀ z ∈ later, z.isLabel = true → z.label ≠ l.label

/-- For any description `Q` of the labels that are marked in the three ways. -/
theorem result_marks_of {L : Locale} {f : Filter} {s : Str} {o : Order} {n : Nat} {v v' : List Str} {p : TParser}
    (h : (TParser.init f).fromStream L o n s v = some (p, v')) (Q : List Str → List Str → List Str → List Str → Prop)
    (hQ : ∀ (q p' : TParser) (v' names : List Str), q.usage = references L f s → names = o.run .labels (((TParser.init f).readStream L s).labelsDefined.map (·.1)) →
      Points q names → q.markLoop o n names v = some (p', v') →
      ∃ us as ds, Q names us as ds ∧ (∀ a ∈ us ++ as ++ ds, a ∈ names) ∧
        ∀ i : Nat, p'.lines[i]?.map (fun l => (l.isUsed = true, l.isUsedThroughAlias = true, l.isUsedDataThroughAlias = true)) =
          q.lines[i]?.map (fun l => (l.isUsed = true ∨ ∃ a ∈ us, q.place a = i, l.isUsedThroughAlias = true ∨ ∃ a ∈ as, q.place a = i,
            l.isUsedDataThroughAlias = true ∨ ∃ a ∈ ds, q.place a = i))) :
    ∃ (names us as ds : List Str) (ms : List TLine), names.Perm (((TParser.init f).readStream L s).labelsDefined.map (·.1)) ∧
      Q names us as ds ∧ (∀ a ∈ us ++ as ++ ds, a ∈ names) ∧ ms.map TLine.noUse = (heldLines L f s).map TLine.noUse ∧
      (∀ x l y, ms = x ++ l :: y → (l.isUsed = true ↔ MarkedIn us l y) ∧ (l.isUsedThroughAlias = true ↔ MarkedIn as l y) ∧
        (l.isUsedDataThroughAlias = true ↔ MarkedIn ds l y)) ∧
      ∀ drop : List TLine → TLine → Bool, (∀ b l, drop b l = true ↔ Removed f b l) →
        p.lines = (remaining drop [] ms).map p.finishKept := by
  have hr := usage_read L f s
  have hpt := points_read L f s
  obtain ⟨e0, -, hinv⟩ := textInv L f s
  have htab := hinv.table
  clear hinv
  have hflt : ((TParser.init f).readStream L s).filter = f := read_filter L f s
  unfold TParser.fromStream at h
  unfold heldLines
  unfold references at *
  generalize (TParser.init f).readStream L s = q at *
  split at h
  · exact absurd h (by simp)
  · rename_i q2 v2 hm
    simp only [Option.some.injEq, Prod.mk.injEq] at h
    obtain ⟨rfl, -⟩ := h
    have hperm : (o.run .labels (q.filterNonLabels.labelsDefined.map (·.1))).Perm (q.labelsDefined.map (·.1)) := o.perm _ _
    obtain ⟨us, as, ds, hex, hsub, hfl⟩ := hQ q.filterNonLabels _ _ _ rfl rfl (fun a ha => hpt a (hperm.mem_iff.1 ha)) hm
    have hpl : ∀ a, q.filterNonLabels.place a = q.place a := fun _ => rfl
    simp only [hpl] at hfl
    obtain ⟨ls, ub, rfl, hn⟩ := markLabelUsage_frame hm
    have hn : ls.map TLine.noUse = q.lines.map TLine.noUse := hn
    have hfl : ∀ i : Nat, ls[i]?.map (fun l => (l.isUsed = true, l.isUsedThroughAlias = true, l.isUsedDataThroughAlias = true)) =
        q.lines[i]?.map (fun l => (l.isUsed = true ∨ ∃ a ∈ us, q.place a = i, l.isUsedThroughAlias = true ∨ ∃ a ∈ as, q.place a = i,
          l.isUsedDataThroughAlias = true ∨ ∃ a ∈ ds, q.place a = i)) := hfl
    refine ⟨_, us, as, ds, ls, hperm, hex, hsub, hn, fun x l y e => ?_, fun drop hd => ?_⟩
    · have hi : ls[x.length]? = some l := by rw [e]; simp
      have hq : (q.lines.map TLine.noUse)[x.length]? = some l.noUse := by rw [← hn, List.getElem?_map, hi]; rfl
      rw [List.getElem?_map, Option.map_eq_some_iff] at hq
      obtain ⟨l0, hl0, e0⟩ := hq
      have e1 : l0.isLabel = l.isLabel := (congrArg TLine.isLabel e0 :)
      have e2 : l0.label = l.label := (congrArg TLine.label e0 :)
      have := hfl x.length
      rw [hi, hl0] at this
      simp only [Option.map_some, Option.some.injEq, Prod.mk.injEq] at this
      obtain ⟨f1, f2, f3⟩ := this
      obtain ⟨g1, g2, g3⟩ := (hr.fresh l0 (List.mem_of_getElem? hl0)).flags
      simp only [g1, g2, g3, Bool.false_eq_true, false_or] at f1 f2 f3
      have later : ∀ z ∈ y, ∃ j z0, x.length < j ∧ q.lines[j]? = some z0 ∧ z0.isLabel = z.isLabel ∧ z0.label = z.label := by
        intro z hz
        obtain ⟨k, hk⟩ := List.mem_iff_getElem?.1 hz
        have hk' : ls[x.length + 1 + k]? = some z := by
          rw [e, List.getElem?_append_right (by omega), show x.length + 1 + k - x.length = k + 1 by omega, List.getElem?_cons_succ, hk]
        have hq : (q.lines.map TLine.noUse)[x.length + 1 + k]? = some z.noUse := by rw [← hn, List.getElem?_map, hk']; rfl
        rw [List.getElem?_map, Option.map_eq_some_iff] at hq
        obtain ⟨z0, hz0, e0⟩ := hq
        exact ⟨_, z0, by omega, hz0, (congrArg TLine.isLabel e0 :), (congrArg TLine.label e0 :)⟩
      have main : ∀ us : List Str, (∀ a ∈ us, a ∈ q.labelsDefined.map (·.1)) → ((∃ a ∈ us, q.place a = x.length) ↔ MarkedIn us l y) := by
        intro us hus
        constructor
        · rintro ⟨a, ha, hpa⟩
          obtain ⟨l1, h1, h2, h3⟩ := hpt a (hus a ha)
          have h1 : q.lines[q.place a]? = some l1 := h1
          rw [hpa, hl0] at h1
          cases h1
          refine ⟨e1 ▸ h2, by rw [← e2, h3]; exact ha, fun z hz hz1 hz2 => ?_⟩
          obtain ⟨j, z0, hj, hz0, c1, c2⟩ := later z hz
          obtain ⟨k, hk⟩ := lookup_of_key (hus a ha)
          have := htab.last a k hk j z0 hz0 (c1.trans hz1) (by rw [c2, hz2, ← e2, h3])
          unfold TParser.place at hpa
          rw [hk] at hpa
          simp only [Option.getD_some] at hpa
          omega
        · rintro ⟨h1, h2, h3⟩
          refine ⟨l.label, h2, ?_⟩
          obtain ⟨k, hk⟩ := lookup_of_key (hus _ h2)
          have hlt := htab.last l.label k hk x.length l0 hl0 (e1.trans h1) e2
          obtain ⟨l1, h4, h5, h6⟩ := hpt l.label (hus _ h2)
          unfold TParser.place
          rw [hk] at h4 ⊢
          simp only [Option.getD_some] at h4 ⊢
          rcases Nat.lt_or_ge x.length (k - 1) with hlt' | hge
          · have hlz : k - 1 < ls.length := by
              have := congrArg List.length hn
              simp only [List.length_map] at this
              rw [this]
              exact (List.getElem?_eq_some_iff.1 h4).1
            have hz : (ls.map TLine.noUse)[k - 1]? = some l1.noUse := by rw [hn, List.getElem?_map, h4]; rfl
            rw [List.getElem?_map, Option.map_eq_some_iff] at hz
            obtain ⟨z, hz, ez⟩ := hz
            have : z ∈ y := by
              rw [e, List.getElem?_append_right (by omega), show k - 1 - x.length = (k - 1 - x.length - 1) + 1 by omega, List.getElem?_cons_succ] at hz
              exact List.mem_of_getElem? hz
            exact absurd ((congrArg TLine.label ez :).trans h6) (h3 z this ((congrArg TLine.isLabel ez :).trans h5))
          · omega
      have hus : ∀ a ∈ us ++ as ++ ds, a ∈ q.labelsDefined.map (·.1) := fun a ha => hperm.mem_iff.1 (hsub a ha)
      refine ⟨?_, ?_, ?_⟩
      · rw [f1]; exact main us fun a ha => hus a (by simp [ha])
      · rw [f2]; exact main as fun a ha => hus a (by simp [ha])
      · rw [f3]; exact main ds fun a ha => hus a (by simp [ha])
    · have := removeLoop_remaining { q.filterNonLabels with lines := ls, ub := ub } {} [] ls
        ⟨by simp [InUnused], .inr ⟨by simp, rfl, rfl, rfl⟩⟩ (by
          intro x hx h1 h2
          have : x.noUse ∈ ls.map TLine.noUse := List.mem_map.2 ⟨x, hx, rfl⟩
          rw [hn, List.mem_map] at this
          obtain ⟨y, hy, e⟩ := this
          have e1 : y.isLabel = x.isLabel := by have := congrArg TLine.isLabel e; exact this
          have e2 : y.isInternalLabel = x.isInternalLabel := by have := congrArg TLine.isInternalLabel e; exact this
          have e3 : y.closestParentLabel = x.closestParentLabel := by have := congrArg TLine.closestParentLabel e; exact this
          rw [← e3]
          exact (hr.fresh y hy).parent (e1.trans h1) (e2.trans h2)) drop (by
          show ∀ b l, drop b l = true ↔ Removed q.filter b l
          rw [hflt]; exact hd)
      exact this

theorem result_exact_of {L : Locale} {f : Filter} {s : Str} {o : Order} {n : Nat} {v v' : List Str} {p : TParser}
    (h : (TParser.init f).fromStream L o n s v = some (p, v')) (Q : List Str → List Str → List Str → Prop)
    (hQ : ∀ (q p' : TParser) (v' names : List Str), q.usage = references L f s → names = o.run .labels (((TParser.init f).readStream L s).labelsDefined.map (·.1)) →
      Points q names → q.markLoop o n names v = some (p', v') →
      ∃ us as, Q names us as ∧ (∀ a ∈ us ++ as, a ∈ names) ∧
        ∀ i : Nat, p'.lines[i]?.map (fun l => (l.isUsed = true, l.isUsedThroughAlias = true, l.isUsedDataThroughAlias = true)) =
          q.lines[i]?.map (fun l => (l.isUsed = true ∨ ∃ a ∈ us, q.place a = i, l.isUsedThroughAlias = true ∨ ∃ a ∈ as, q.place a = i,
            l.isUsedDataThroughAlias = true))) :
    ∃ (names us as : List Str) (ms : List TLine), names.Perm (((TParser.init f).readStream L s).labelsDefined.map (·.1)) ∧
      Q names us as ∧ (∀ a ∈ us ++ as, a ∈ names) ∧ ms.map TLine.noUse = (heldLines L f s).map TLine.noUse ∧
      (∀ x l y, ms = x ++ l :: y → (l.isUsed = true ↔ MarkedIn us l y) ∧ (l.isUsedThroughAlias = true ↔ MarkedIn as l y) ∧
        l.isUsedDataThroughAlias = false) ∧
      ∀ drop : List TLine → TLine → Bool, (∀ b l, drop b l = true ↔ Removed f b l) →
        p.lines = (remaining drop [] ms).map p.finishKept := by
  obtain ⟨names, us, as, ds, ms, h1, ⟨h2, rfl⟩, h3, h4, h5, h6⟩ := result_marks_of h (fun names us as ds => Q names us as ∧ ds = [])
    fun q p' v' names e1 e2 hp hm => by
      obtain ⟨us, as, g1, g2, g3⟩ := hQ q p' v' names e1 e2 hp hm
      exact ⟨us, as, [], ⟨g1, rfl⟩, by simpa using g2, fun i => by rw [g3 i]; simp⟩
  refine ⟨names, us, as, ms, h1, h2, by simpa using h3, h4, fun x l y e => ?_, h6⟩
  obtain ⟨g1, g2, g3⟩ := h5 x l y e
  refine ⟨g1, g2, ?_⟩
  cases hl : l.isUsedDataThroughAlias with
  | false => rfl
  | true => exact absurd (g3.1 hl).2.1 (by simp)

/-- The labels are marked in one of the three ways, each for a reason. -/
theorem markLoop_marks {o : Order} {n : Nat} (names : List Str) {p p' : TParser} {v v' : List Str} (hp : Points p names)
    (h : p.markLoop o n names v = some (p', v')) :
    ∃ us as ds : List Str, ((∀ a ∈ us, Reachable p.usage a) ∧ (∀ a ∈ as, ∃ b, (a, b) ∈ p.usage.aliased ∧ Reachable p.usage b) ∧
      (∀ a ∈ ds, ∃ r b, DataRef p.usage a r ∧ (r, b) ∈ p.usage.aliased ∧ Reachable p.usage b)) ∧ (∀ a ∈ us ++ as ++ ds, a ∈ names) ∧
      ∀ i : Nat, p'.lines[i]?.map (fun l => (l.isUsed = true, l.isUsedThroughAlias = true, l.isUsedDataThroughAlias = true)) =
        p.lines[i]?.map (fun l => (l.isUsed = true ∨ ∃ a ∈ us, p.place a = i, l.isUsedThroughAlias = true ∨ ∃ a ∈ as, p.place a = i,
          l.isUsedDataThroughAlias = true ∨ ∃ a ∈ ds, p.place a = i)) := by
  induction names generalizing p v with
  | nil =>
    simp only [TParser.markLoop, Option.some.injEq, Prod.mk.injEq] at h
    obtain ⟨rfl, -⟩ := h
    exact ⟨[], [], [], by simp, by simp, fun i => by simp⟩
  | cons a names ih =>
    obtain ⟨l, hl, hlab, hname⟩ := hp a (List.mem_cons_self ..)
    unfold TParser.markLoop at h
    simp only [hl] at h
    split at h
    · cases h
    · rename_i l' w hm
      obtain ⟨s1, s2, -, -, -⟩ := markLine_same hm
      have hp' : Points { p with lines := p.lines.set _ l' } names :=
        (show Points p names from fun x hx => hp x (List.mem_cons_of_mem _ hx)).set hl s1 s2
      obtain ⟨us, as, ds, ⟨r1, r2, r3⟩, h2, h3⟩ := ih (p := { p with lines := p.lines.set _ l' }) hp' h
      have hpl : ∀ b, ({ p with lines := p.lines.set ((p.labelsDefined.lookup a).getD 0 - 1) l' } : TParser).place b = p.place b := fun _ => rfl
      simp only [hpl] at h3
      have hset : ∀ i : Nat, (p.lines.set ((p.labelsDefined.lookup a).getD 0 - 1) l')[i]? = if p.place a = i then some l' else p.lines[i]? := by
        intro i
        show (p.lines.set (p.place a) l')[i]? = _
        by_cases e : p.place a = i
        · rw [if_pos e, ← e]
          exact List.getElem?_set_self (List.getElem?_eq_some_iff.1 hl).1
        · rw [if_neg e, List.getElem?_set_ne e]
      have hat : ∀ i : Nat, p.place a = i → p.lines[i]? = some l := fun i e => e ▸ hl
      have fin : ∀ us' as' ds' : List Str, (∀ b, b ∈ us' ↔ b ∈ us ∨ b = a ∧ b ∈ us') → (∀ b, b ∈ as' ↔ b ∈ as ∨ b = a ∧ b ∈ as') →
          (∀ b, b ∈ ds' ↔ b ∈ ds ∨ b = a ∧ b ∈ ds') →
          (l'.isUsed = true ∨ a ∈ us ↔ l.isUsed = true ∨ a ∈ us') → (l'.isUsedThroughAlias = true ∨ a ∈ as ↔ l.isUsedThroughAlias = true ∨ a ∈ as') →
          (l'.isUsedDataThroughAlias = true ∨ a ∈ ds ↔ l.isUsedDataThroughAlias = true ∨ a ∈ ds') → ∀ i : Nat,
          p'.lines[i]?.map (fun l => (l.isUsed = true, l.isUsedThroughAlias = true, l.isUsedDataThroughAlias = true)) =
          p.lines[i]?.map (fun l => (l.isUsed = true ∨ ∃ a ∈ us', p.place a = i, l.isUsedThroughAlias = true ∨ ∃ a ∈ as', p.place a = i,
            l.isUsedDataThroughAlias = true ∨ ∃ a ∈ ds', p.place a = i)) := by
        intro us' as' ds' e1 e2 e3 f1 f2 f3 i
        have ex : ∀ (us us' : List Str), (∀ b, b ∈ us' ↔ b ∈ us ∨ b = a ∧ b ∈ us') → (∀ (P Q : Prop), (p.place a = i → (P ∨ a ∈ us ↔ Q ∨ a ∈ us')) →
            (p.place a ≠ i → (P ↔ Q)) → ((P ∨ ∃ b ∈ us, p.place b = i) ↔ (Q ∨ ∃ b ∈ us', p.place b = i))) := by
          intro us us' e P Q g g'
          have h1 : (∃ b ∈ us', p.place b = i) ↔ (∃ b ∈ us, p.place b = i) ∨ (a ∈ us' ∧ p.place a = i) := by
            constructor
            · rintro ⟨b, hb, hi⟩
              rcases (e b).1 hb with hb | ⟨rfl, hb⟩
              · exact .inl ⟨b, hb, hi⟩
              · exact .inr ⟨hb, hi⟩
            · rintro (⟨b, hb, hi⟩ | ⟨hb, hi⟩)
              · exact ⟨b, (e b).2 (.inl hb), hi⟩
              · exact ⟨a, hb, hi⟩
          rw [h1]
          by_cases hi : p.place a = i
          · have g := g hi
            simp only [hi, and_true]
            constructor
            · rintro (h | h)
              · rcases g.1 (.inl h) with h | h
                · exact .inl h
                · exact .inr (.inr h)
              · exact .inr (.inl h)
            · rintro (h | h | h)
              · rcases g.2 (.inl h) with h | h
                · exact .inl h
                · exact .inr ⟨a, h, hi⟩
              · exact .inr h
              · rcases g.2 (.inr h) with h | h
                · exact .inl h
                · exact .inr ⟨a, h, hi⟩
          · rw [g' hi]; simp [hi]
        rw [h3 i, show ({ p with lines := p.lines.set ((p.labelsDefined.lookup a).getD 0 - 1) l' } : TParser).lines[i]? = _ from hset i]
        by_cases e : p.place a = i
        · rw [if_pos e, hat i e]
          simp only [Option.map_some, Option.some.injEq, Prod.mk.injEq, eq_iff_iff]
          exact ⟨ex us us' e1 _ _ (fun _ => f1) fun h => (h e).elim, ex as as' e2 _ _ (fun _ => f2) fun h => (h e).elim,
            ex ds ds' e3 _ _ (fun _ => f3) fun h => (h e).elim⟩
        · rw [if_neg e]
          cases p.lines[i]? with
          | none => rfl
          | some m =>
            simp only [Option.map_some, Option.some.injEq, Prod.mk.injEq, eq_iff_iff]
            exact ⟨ex us us' e1 _ _ (fun h => (e h).elim) fun _ => Iff.rfl, ex as as' e2 _ _ (fun h => (e h).elim) fun _ => Iff.rfl,
              ex ds ds' e3 _ _ (fun h => (e h).elim) fun _ => Iff.rfl⟩
      -- labels that are not marked now may still be in the lists
      have same : ∀ us : List Str, ∀ b, b ∈ us ↔ b ∈ us ∨ b = a ∧ b ∈ us := fun us b => ⟨.inl, fun h => h.elim id (·.2)⟩
      have more : ∀ us : List Str, ∀ b, b ∈ a :: us ↔ b ∈ us ∨ b = a ∧ b ∈ a :: us := by
        intro us b
        rw [List.mem_cons]
        constructor
        · rintro (h | h)
          · exact .inr ⟨h, .inl h⟩
          · exact .inl h
        · rintro (h | ⟨h, -⟩)
          · exact .inr h
          · exact .inl h
      have sub : ∀ us' as' ds' : List Str, (∀ b, b ∈ us' ↔ b ∈ us ∨ b = a ∧ b ∈ us') → (∀ b, b ∈ as' ↔ b ∈ as ∨ b = a ∧ b ∈ as') →
          (∀ b, b ∈ ds' ↔ b ∈ ds ∨ b = a ∧ b ∈ ds') → ∀ b ∈ us' ++ as' ++ ds', b ∈ a :: names := by
        intro us' as' ds' e1 e2 e3 b hb
        simp only [List.mem_append] at hb
        rw [List.mem_cons]
        have h2 : ∀ b, b ∈ us ∨ b ∈ as ∨ b ∈ ds → b ∈ names := fun b hb => h2 b (by simpa [or_assoc] using hb)
        rcases hb with (hb | hb) | hb
        · rcases (e1 b).1 hb with hb | hb
          · exact .inr (h2 b (.inl hb))
          · exact .inl hb.1
        · rcases (e2 b).1 hb with hb | hb
          · exact .inr (h2 b (.inr (.inl hb)))
          · exact .inl hb.1
        · rcases (e3 b).1 hb with hb | hb
          · exact .inr (h2 b (.inr (.inr hb)))
          · exact .inl hb.1
      have hcons : ∀ {P : Str → Prop} (us : List Str), P a → (∀ b ∈ us, P b) → ∀ b ∈ a :: us, P b := by
        intro P us h1 h2 b hb
        rcases List.mem_cons.1 hb with rfl | hb
        · exact h1
        · exact h2 b hb
      unfold markLine at hm
      rw [hname] at hm
      split at hm
      · cases hm
      · rename_i hu
        simp only [Option.some.injEq, Prod.mk.injEq] at hm
        have e := hm.1.symm
        subst e
        exact ⟨a :: us, as, ds, ⟨hcons us (isUsed_sound hu) r1, r2, r3⟩, sub _ _ _ (more us) (same as) (same ds),
          fin _ _ _ (more us) (same as) (same ds) (by simp) Iff.rfl Iff.rfl⟩
      · split at hm
        · cases hm
        · rename_i hu
          simp only [Option.some.injEq, Prod.mk.injEq] at hm
          have e := hm.1.symm
          subst e
          obtain ⟨r, hr, w, hw⟩ := anyRef_true hu
          obtain ⟨b, k1, k2⟩ := isUsedThroughAlias_sound hw
          exact ⟨us, as, a :: ds, ⟨r1, r2, hcons ds ⟨r, b, .inl (refsOf_refers (mem_run_order.1 hr)), k1, k2⟩ r3⟩,
            sub _ _ _ (same us) (same as) (more ds), fin _ _ _ (same us) (same as) (more ds) Iff.rfl Iff.rfl (by simp)⟩
        · split at hm
          · cases hm
          · rename_i hu
            simp only [Option.some.injEq, Prod.mk.injEq] at hm
            have e := hm.1.symm
            subst e
            exact ⟨us, a :: as, ds, ⟨r1, hcons as (isUsedThroughAlias_sound hu) r2, r3⟩, sub _ _ _ (same us) (more as) (same ds),
              fin _ _ _ (same us) (more as) (same ds) Iff.rfl (by simp) Iff.rfl⟩
          · simp only [Option.some.injEq, Prod.mk.injEq] at hm
            have e := hm.1.symm
            subst e
            exact ⟨us, as, ds, ⟨r1, r2, r3⟩, sub _ _ _ (same us) (same as) (same ds),
              fin _ _ _ (same us) (same as) (same ds) Iff.rfl Iff.rfl Iff.rfl⟩

/-- The lines of the result, for all inputs. -/
theorem result_marks {L : Locale} {f : Filter} {s : Str} {o : Order} {n : Nat} {v v' : List Str} {p : TParser}
    (h : (TParser.init f).fromStream L o n s v = some (p, v')) :
    ∃ (us as ds : List Str) (ms : List TLine), ((∀ a ∈ us, Reachable (references L f s) a) ∧
      (∀ a ∈ as, ∃ b, (a, b) ∈ (references L f s).aliased ∧ Reachable (references L f s) b) ∧
      (∀ a ∈ ds, ∃ r b, DataRef (references L f s) a r ∧ (r, b) ∈ (references L f s).aliased ∧ Reachable (references L f s) b)) ∧
      ms.map TLine.noUse = (heldLines L f s).map TLine.noUse ∧
      (∀ x l y, ms = x ++ l :: y → (l.isUsed = true ↔ MarkedIn us l y) ∧ (l.isUsedThroughAlias = true ↔ MarkedIn as l y) ∧
        (l.isUsedDataThroughAlias = true ↔ MarkedIn ds l y)) ∧
      ∀ drop : List TLine → TLine → Bool, (∀ b l, drop b l = true ↔ Removed f b l) →
        p.lines = (remaining drop [] ms).map p.finishKept := by
  obtain ⟨names, us, as, ds, ms, -, h2, -, h4, h5, h6⟩ := result_marks_of h (fun _ us as ds => (∀ a ∈ us, Reachable (references L f s) a) ∧
      (∀ a ∈ as, ∃ b, (a, b) ∈ (references L f s).aliased ∧ Reachable (references L f s) b) ∧
      (∀ a ∈ ds, ∃ r b, DataRef (references L f s) a r ∧ (r, b) ∈ (references L f s).aliased ∧ Reachable (references L f s) b))
    fun q p' v' names e1 _ hp hm => by rw [← e1]; exact markLoop_marks names hp hm
  exact ⟨us, as, ds, ms, h2, h4, h5, h6⟩

theorem result_exact {L : Locale} {f : Filter} {s : Str} {o : Order} {n : Nat} {v v' : List Str} {p : TParser}
    (h : (TParser.init f).fromStream L o n s v = some (p, v')) {S : Str → Prop} (hg : CodeOnly (references L f s) S)
    (hS : ∀ a ∈ ((TParser.init f).readStream L s).labelsDefined.map (·.1), S a) :
    ∃ (names us as : List Str) (ms : List TLine), names.Perm (((TParser.init f).readStream L s).labelsDefined.map (·.1)) ∧
      GExamined (references L f s) v names us as ∧ (∀ a ∈ us ++ as, a ∈ names) ∧ ms.map TLine.noUse = (heldLines L f s).map TLine.noUse ∧
      (∀ x l y, ms = x ++ l :: y → (l.isUsed = true ↔ MarkedIn us l y) ∧ (l.isUsedThroughAlias = true ↔ MarkedIn as l y) ∧
        l.isUsedDataThroughAlias = false) ∧
      ∀ drop : List TLine → TLine → Bool, (∀ b l, drop b l = true ↔ Removed f b l) →
        p.lines = (remaining drop [] ms).map p.finishKept := by
  refine result_exact_of h (GExamined (references L f s) v) fun q p' v' names e1 e2 hp hm => ?_
  rw [← e1] at hg ⊢
  subst e2
  exact markLoop_exact _ hg (fun a ha => hS a ((o.perm _ _).mem_iff.1 ha)) hp hm

/-! ### One label examined first -/

/-- The labels `x k` first, wherever they occur. -/
def Order.front (x : OrdKey → Str) : Order where
  run k l := if x k ∈ l then x k :: l.erase (x k) else l
  perm k l := by
    split
    · rename_i h
      exact (List.perm_cons_erase h).symm
    · exact .refl _

/-- A label that has been taken is not found in use. -/
theorem GExamined.taken {g : Usage} {v names us as : List Str} (h : GExamined g v names us as) {a : Str} (ha : a ∈ v) : a ∉ us := by
  induction h with
  | done => simp
  | used h1 _ ih =>
    intro hu
    rcases List.mem_cons.1 hu with rfl | hu
    · cases h1 <;> contradiction
    · exact ih (by simp [ha]) hu
  | alias _ _ _ _ ih => exact ih (by simp [ha])
  | unused _ _ _ ih => exact ih ha

/-- If the code of the exported function `a` refers to the label `b`, then `b` can be examined first and take `a`. -/
theorem isUsed_front {g : Usage} {o : Order} {n : Nat} {a b : Str} {rs : List Str} {r : Bool × List Str}
    (ho : o.run (.used b) (refsOf g.used b) = a :: rs) (h : isUsed g o n b 1 [] = some r)
    (hb : b ∉ g.usercode) (ha : a ∈ g.usercode) (hne : a ≠ b) (h0 : a ≠ []) : r = (true, [a, b]) := by
  cases n with
  | zero => cases h
  | succ n =>
    unfold isUsed at h
    simp only [ho, anyRef] at h
    rw [if_neg (by simp), if_neg (by simpa using hb)] at h
    have h0' : a.isEmpty = false := by cases a with | nil => exact absurd rfl h0 | cons => rfl
    simp only [h0'] at h
    cases n with
    | zero => simp [isUsed] at h
    | succ n =>
      simp [isUsed, hne, ha] at h
      exact h.symm

/-- The label `b` first, and `a` first among those that refer to a label. -/
def Order.first (b a : Str) : Order := Order.front fun
  | .labels => b
  | _ => a

/-- If the code of the exported function `a` refers to the label `b`, which is not exported, then `a` can be lost. -/
theorem result_front {L : Locale} {f : Filter} {s : Str} {n : Nat} {a b : Str} {v' : List Str} {p : TParser}
    (h : (TParser.init f).fromStream L (Order.first b a) n s [] = some (p, v')) {S : Str → Prop} (hg : CodeOnly (references L f s) S)
    (hS : ∀ a ∈ ((TParser.init f).readStream L s).labelsDefined.map (·.1), S a)
    (hd : b ∈ ((TParser.init f).readStream L s).labelsDefined.map (·.1)) (hab : CodeRef (references L f s) b a)
    (hb : b ∉ (references L f s).usercode) (ha : a ∈ (references L f s).usercode) (hne : a ≠ b) (h0 : a ≠ []) :
    ∃ (names us as : List Str) (ms : List TLine), names.Perm (((TParser.init f).readStream L s).labelsDefined.map (·.1)) ∧
      a ∉ us ∧ (∀ a ∈ us ++ as, a ∈ names) ∧ ms.map TLine.noUse = (heldLines L f s).map TLine.noUse ∧
      (∀ x l y, ms = x ++ l :: y → (l.isUsed = true ↔ MarkedIn us l y) ∧ (l.isUsedThroughAlias = true ↔ MarkedIn as l y) ∧
        l.isUsedDataThroughAlias = false) ∧
      ∀ drop : List TLine → TLine → Bool, (∀ b l, drop b l = true ↔ Removed f b l) →
        p.lines = (remaining drop [] ms).map p.finishKept := by
  refine result_exact_of h (fun _ us _ => a ∉ us) fun q p' v' names e1 e2 hp hm => ?_
  obtain ⟨rest, hnames⟩ : ∃ rest, names = b :: rest := by
    refine ⟨_, e2.trans (if_pos ?_)⟩
    exact hd
  have hsub : ∀ x ∈ names, S x := fun x hx => hS x (((Order.first b a).perm _ _).mem_iff.1 (e2 ▸ hx))
  clear e2 hd hS h
  subst hnames
  obtain ⟨rs, hrs⟩ : ∃ rs, (Order.first b a).run (.used b) (refsOf (references L f s).used b) = a :: rs := by
    refine ⟨_, if_pos ?_⟩
    exact refers_refsOf hg.keys hab
  rw [← e1] at hg hb ha hrs
  obtain ⟨l, hl, hlab, hname⟩ := hp b (List.mem_cons_self ..)
  unfold TParser.markLoop at hm
  simp only [hl] at hm
  split at hm
  · cases hm
  · rename_i l' w hml
    obtain ⟨s1, s2, -, -, -⟩ := markLine_same hml
    have hfirst : l' = { l with isUsed := true } ∧ w = [a, b] := by
      unfold markLine at hml
      split at hml
      · cases hml
      · rename_i v2 he
        have := isUsed_front hrs (hname ▸ he) hb ha hne h0
        simp only [Prod.mk.injEq, true_and] at this
        simp only [Option.some.injEq, Prod.mk.injEq] at hml
        exact ⟨hml.1.symm, hml.2.symm.trans this⟩
      · rename_i v2 he
        have := isUsed_front hrs (hname ▸ he) hb ha hne h0
        cases this
    obtain ⟨g3, rfl⟩ := hfirst
    have hp' : Points { q with lines := q.lines.set _ l' } rest :=
      (show Points q rest from fun x hx => hp x (List.mem_cons_of_mem _ hx)).set hl s1 s2
    obtain ⟨us, as, h1, h2, h3⟩ := markLoop_exact (p := { q with lines := q.lines.set _ l' }) rest hg
      (fun x hx => hsub x (List.mem_cons_of_mem _ hx)) hp' hm
    have hpl : ∀ c, ({ q with lines := q.lines.set ((q.labelsDefined.lookup b).getD 0 - 1) l' } : TParser).place c = q.place c := fun _ => rfl
    simp only [hpl] at h3
    have hset : ∀ i : Nat, (q.lines.set ((q.labelsDefined.lookup b).getD 0 - 1) l')[i]? = if q.place b = i then some l' else q.lines[i]? := by
      intro i
      show (q.lines.set (q.place b) l')[i]? = _
      by_cases e : q.place b = i
      · rw [if_pos e, ← e]
        exact List.getElem?_set_self (List.getElem?_eq_some_iff.1 hl).1
      · rw [if_neg e, List.getElem?_set_ne e]
    have hat : ∀ i : Nat, q.place b = i → q.lines[i]? = some l := fun i e => e ▸ hl
    refine ⟨b :: us, as, ?_, ?_, fun i => ?_⟩
    · have := h1.taken (a := a) (by simp)
      simp [hne, this]
    · simp only [List.cons_append, List.mem_cons]
      exact fun x hx => hx.imp_right (h2 x)
    · rw [h3 i, show ({ q with lines := q.lines.set ((q.labelsDefined.lookup b).getD 0 - 1) l' } : TParser).lines[i]? = _ from hset i]
      by_cases e : q.place b = i
      · rw [if_pos e, hat i e, g3]
        simp [e]
      · rw [if_neg e]
        simp [e]

end AsmParser
