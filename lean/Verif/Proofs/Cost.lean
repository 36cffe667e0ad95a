/-
Helper lemmas: how many calls the analysis of label usage makes.
-/
import Verif.Model.Cost
import Verif.Proofs.Chains

namespace AsmParser

/-! ### The counter changes nothing -/

def Answer.forget (x : Answer) : Bool × List Str := (x.1, x.2.1)

theorem anyRefC_forget {q : Str → List Str → Option Answer} {q' : Str → List Str → Option (Bool × List Str)}
    (h : ∀ r v, (q r v).map Answer.forget = q' r v) (rs v : List Str) : (anyRefC q rs v).map Answer.forget = anyRef q' rs v := by
  induction rs generalizing v with
  | nil => rfl
  | cons r rs ih =>
    unfold anyRefC anyRef
    rw [← h r v]
    cases q r v with
    | none => rfl
    | some x =>
      obtain ⟨b, v1, n⟩ := x
      cases b
      · simp only [Option.map_some, Answer.forget]
        rw [← ih v1]
        cases anyRefC q rs v1 <;> rfl
      · rfl

theorem isUsedC_forget (g : Usage) (o : Order) (n : Nat) (a : Str) (d : Nat) (v : List Str) :
    (isUsedC g o n a d v).map Answer.forget = isUsed g o n a d v := by
  induction n generalizing a d v with
  | zero => rfl
  | succ n ih =>
    unfold isUsedC isUsed
    simp only
    generalize (if d = 0 then [] else v) = u
    split
    · rfl
    split
    · rfl
    have h1 := anyRefC_forget (q := fun ref vis => if ref.isEmpty then some (true, vis, 0) else isUsedC g o n ref (d + 1) vis)
      (q' := fun ref vis => if ref.isEmpty then some (true, vis) else isUsed g o n ref (d + 1) vis)
      (by intro r v; split; · rfl
          exact ih r (d + 1) v) (o.run (.used a) (refsOf g.used a)) (a :: u)
    rw [← h1]
    cases anyRefC (fun ref vis => if ref.isEmpty then some (true, vis, 0) else isUsedC g o n ref (d + 1) vis) (o.run (.used a) (refsOf g.used a)) (a :: u) with
    | none => rfl
    | some x =>
      obtain ⟨b, u1, k⟩ := x
      cases b
      · simp only [Option.map_some, Answer.forget]
        split
        · have h2 := anyRefC_forget (q := fun ref vis => isUsedC g o n ref (d - 1) vis) (q' := fun ref vis => isUsed g o n ref (d - 1) vis)
            (fun r v => ih r (d - 1) v) (o.run (.weak a) (refsOf g.weaklyUsed a)) u1
          rw [← h2]
          cases anyRefC (fun ref vis => isUsedC g o n ref (d - 1) vis) (o.run (.weak a) (refsOf g.weaklyUsed a)) u1 with
          | none => rfl
          | some x =>
            obtain ⟨b, u2, k2⟩ := x
            cases b
            · simp only [Option.map_some, Answer.forget]
              have h3 := anyRefC_forget (q := fun ref vis => isUsedC g o n ref (d - 1) vis) (q' := fun ref vis => isUsed g o n ref (d - 1) vis)
                (fun r v => ih r (d - 1) v) (o.run (.data a) (refsOf g.dataUsed a)) u2
              rw [← h3]
              cases anyRefC (fun ref vis => isUsedC g o n ref (d - 1) vis) (o.run (.data a) (refsOf g.dataUsed a)) u2 with
              | none => rfl
              | some x => obtain ⟨b, u3, k3⟩ := x; cases b <;> rfl
            · rfl
        · rfl
      · rfl

theorem isUsedThroughAliasC_forget (g : Usage) (o : Order) (n : Nat) (a : Str) (v : List Str) :
    (isUsedThroughAliasC g o n a v).map Answer.forget = isUsedThroughAlias g o n a v := by
  unfold isUsedThroughAliasC isUsedThroughAlias
  cases g.aliased.lookup a with
  | none => rfl
  | some b => exact isUsedC_forget g o n b 1 v

theorem isDataUsedThroughAliasC_forget (g : Usage) (o : Order) (n : Nat) (a : Str) (v : List Str) :
    (isDataUsedThroughAliasC g o n a v).map Answer.forget = isDataUsedThroughAlias g o n a v :=
  anyRefC_forget (isUsedThroughAliasC_forget g o n) _ v

theorem markLineC_forget (g : Usage) (o : Order) (n : Nat) (l : TLine) (v : List Str) :
    (markLineC g o n l v).map (fun x => (x.1, x.2.1)) = markLine g o n l v := by
  unfold markLineC markLine
  rw [← isUsedC_forget]
  cases isUsedC g o n l.label 1 v with
  | none => rfl
  | some x =>
    obtain ⟨b, v1, k⟩ := x
    cases b
    · simp only [Option.map_some, Answer.forget]
      rw [← isDataUsedThroughAliasC_forget]
      cases isDataUsedThroughAliasC g o n l.label v1 with
      | none => rfl
      | some x =>
        obtain ⟨b, v2, k⟩ := x
        cases b
        · simp only [Option.map_some, Answer.forget]
          rw [← isUsedThroughAliasC_forget]
          cases isUsedThroughAliasC g o n l.label v2 with
          | none => rfl
          | some x => obtain ⟨b, v3, k⟩ := x; cases b <;> rfl
        · rfl
    · rfl

theorem markLoopC_forget (o : Order) (n : Nat) (names : List Str) (p : TParser) (v : List Str) :
    (p.markLoopC o n names v).map (fun x => (x.1, x.2.1)) = p.markLoop o n names v := by
  induction names generalizing p v with
  | nil => rfl
  | cons a names ih =>
    unfold TParser.markLoopC TParser.markLoop
    simp only
    cases p.lines[(p.labelsDefined.lookup a).getD 0 - 1]? with
    | none => exact ih _ v
    | some line =>
      simp only
      rw [← markLineC_forget]
      cases markLineC p.usage o n line v with
      | none => rfl
      | some x =>
        obtain ⟨l', v1, k⟩ := x
        simp only [Option.map_some]
        rw [← ih, Option.map_map]
        rfl

theorem fromStreamC_forget (L : Locale) (o : Order) (n : Nat) (p : TParser) (s : Str) (v : List Str) :
    (p.fromStreamC L o n s v).map (fun x => (x.1, x.2.1)) = p.fromStream L o n s v := by
  unfold TParser.fromStreamC TParser.fromStream TParser.markLabelUsage
  simp only
  rw [← markLoopC_forget]
  cases (p.readStream L s).filterNonLabels.markLoopC o n
    (o.run .labels ((p.readStream L s).filterNonLabels.labelsDefined.map (·.1))) v with
  | none => rfl
  | some x => rfl

/-! ### At least as many calls as chains -/

/-- A chain of references from code, from the label `a` and without labels of `v`. -/
inductive GTrail (g : Usage) : List Str → Str → List Str → Prop
  | one {v a} : a ∉ v → GTrail g v a [a]
  | step {v a b c} : a ∉ v → CodeRef g a b → GTrail g (a :: v) b c → GTrail g v a (a :: c)

/-- Nothing is a reason to keep a label. -/
structure Idle (g : Usage) (S : Str → Prop) : Prop extends CodeOnly g S where
  visible : ∀ a, S a → a ∉ g.usercode
  outside : ∀ a, S a → ¬ CodeRef g a []

theorem GTrail.head {g : Usage} {v : List Str} {a : Str} {c : List Str} (h : GTrail g v a c) : c.head? = some a := by
  cases h <;> rfl

theorem GTrail.avoids {g : Usage} {v : List Str} {a : Str} {c : List Str} (h : GTrail g v a c) : a ∉ v := by
  cases h <;> assumption

theorem sum_map_le {f g : Str → Nat} {rs : List Str} (h : ∀ b ∈ rs, f b ≤ g b) : (rs.map f).sum ≤ (rs.map g).sum := by
  induction rs with
  | nil => simp
  | cons r rs ih =>
    simp only [List.map_cons, List.sum_cons]
    have := h r (by simp)
    have := ih fun b hb => h b (by simp [hb])
    omega

theorem sum_map_lt {f g : Str → Nat} {rs : List Str} (h : ∀ b ∈ rs, f b ≤ g b) {b : Str} (hb : b ∈ rs) (hlt : f b < g b) :
    (rs.map f).sum < (rs.map g).sum := by
  induction rs with
  | nil => cases hb
  | cons r rs ih =>
    simp only [List.map_cons, List.sum_cons]
    have h1 := h r (by simp)
    rcases List.mem_cons.1 hb with rfl | hb
    · have := sum_map_le (rs := rs) fun b hb => h b (by simp [hb])
      omega
    · have := ih (fun b hb => h b (by simp [hb])) hb
      omega

theorem length_le_sum {α : Type} (key : α → Option Str) (cs : List α) (rs : List Str)
    (h : ∀ c ∈ cs, key c = none ∨ ∃ b ∈ rs, key c = some b) :
    cs.length ≤ (cs.filter fun c => key c == none).length + (rs.map fun b => (cs.filter fun c => key c == some b).length).sum := by
  induction cs with
  | nil => simp
  | cons c cs ih =>
    have ih := ih fun c hc => h c (by simp [hc])
    rcases h c (by simp) with e | ⟨b, hb, e⟩
    · rw [List.filter_cons_of_pos (by rw [e]; rfl)]
      have : (rs.map fun b => (cs.filter fun c => key c == some b).length).sum ≤
          (rs.map fun b => ((c :: cs).filter fun c => key c == some b).length).sum :=
        sum_map_le fun b _ => (List.Sublist.filter _ (List.sublist_cons_self c cs)).length_le
      simp only [List.length_cons]
      omega
    · have h1 : (rs.map fun b => (cs.filter fun c => key c == some b).length).sum <
          (rs.map fun b => ((c :: cs).filter fun c => key c == some b).length).sum :=
        sum_map_lt (fun b _ => (List.Sublist.filter _ (List.sublist_cons_self c cs)).length_le) hb (by
          rw [List.filter_cons_of_pos (by rw [e]; simp)]
          simp)
      have h2 := (List.Sublist.filter (fun c => key c == none) (List.sublist_cons_self c cs)).length_le
      simp only [List.length_cons]
      omega

theorem length_split {α : Type} (q : α → Bool) (l : List α) : l.length = (l.filter q).length + (l.filter fun x => !q x).length := by
  induction l with
  | nil => rfl
  | cons x l ih => cases hx : q x <;> simp [hx] <;> omega

theorem nodup_map_on {α β : Type} {f : α → β} {l : List α} (hf : ∀ x ∈ l, ∀ y ∈ l, f x = f y → x = y) (h : l.Nodup) : (l.map f).Nodup := by
  unfold List.Nodup
  rw [List.pairwise_map]
  exact h.imp_of_mem fun hx hy hne e => hne (hf _ hx _ hy e)

theorem anyRefC_idle {q : Str → List Str → Option Answer} {rs u : List Str} (w : Str → Nat) {r : Answer}
    (hq : ∀ b ∈ rs, ∀ r, q b u = some r → ∃ k, r = (false, u, k) ∧ w b ≤ k) (h : anyRefC q rs u = some r) :
    ∃ k, r = (false, u, k) ∧ (rs.map w).sum ≤ k := by
  induction rs generalizing r with
  | nil =>
    simp only [anyRefC, Option.some.injEq] at h
    exact ⟨0, h.symm, by simp⟩
  | cons b rs ih =>
    unfold anyRefC at h
    cases hb : q b u with
    | none => rw [hb] at h; cases h
    | some x =>
      obtain ⟨k, rfl, hk⟩ := hq b (by simp) x hb
      rw [hb] at h
      simp only [Option.map_eq_some_iff] at h
      obtain ⟨y, hy, rfl⟩ := h
      obtain ⟨k', rfl, hk'⟩ := ih (fun b hb => hq b (by simp [hb])) hy
      exact ⟨k + k', rfl, by simp only [List.map_cons, List.sum_cons]; omega⟩

theorem anyRefC_some {q : Str → List Str → Option Answer} {rs u : List Str} {r : Answer}
    (hq : ∀ b ∈ rs, ∀ r, q b u = some r → ∃ k, r = (false, u, k)) (h : anyRefC q rs u = some r) : ∀ b ∈ rs, ∃ r, q b u = some r := by
  induction rs generalizing r with
  | nil => simp
  | cons b rs ih =>
    unfold anyRefC at h
    cases hb : q b u with
    | none => rw [hb] at h; cases h
    | some x =>
      obtain ⟨k, rfl⟩ := hq b (by simp) x hb
      rw [hb] at h
      simp only [Option.map_eq_some_iff] at h
      obtain ⟨y, hy, rfl⟩ := h
      intro b' hb'
      rcases List.mem_cons.1 hb' with rfl | hb'
      · exact ⟨_, hb⟩
      · exact ih (fun b hb => hq b (by simp [hb])) hy b' hb'

theorem isUsedC_idle {g : Usage} {S : Str → Prop} (hg : Idle g S) {o : Order} {n : Nat} {a : Str} {d : Nat} (h0 : d ≠ 0) (ha : S a)
    {v : List Str} {r : Answer} (h : isUsedC g o n a d v = some r) :
    ∃ k, r = (false, v, k) ∧ 1 ≤ k ∧ (∀ cs : List (List Str), cs.Nodup → (∀ c ∈ cs, GTrail g v a c) → cs.length ≤ k) ∧
      ∀ c, GTrail g v a c → c.length ≤ n := by
  induction n generalizing a d v r with
  | zero => cases h
  | succ n ih =>
    unfold isUsedC at h
    simp only [if_neg h0, hg.data a ha, hg.weak, refsOf_nil, run_nil, anyRefC] at h
    split at h
    · rename_i hc
      have hc : a ∈ v := by simpa using hc
      simp only [Option.some.injEq] at h
      refine ⟨1, h.symm, by omega, fun cs _ hcs => ?_, fun c h => absurd hc h.avoids⟩
      cases cs with
      | nil => simp
      | cons c cs => exact absurd hc (hcs c (by simp)).avoids
    · rename_i hc
      have hc : a ∉ v := by simpa using hc
      rw [if_neg (by simpa using hg.visible a ha)] at h
      have hstep : ∀ b ∈ o.run (.used a) (refsOf g.used a), b ≠ [] ∧ S b := by
        intro b hb
        have hb := refsOf_refers (mem_run_order.1 hb)
        have he : b ≠ [] := by rintro rfl; exact hg.outside a ha hb
        exact ⟨he, (hg.closed a b ha hb).resolve_left he⟩
      have hq : ∀ b ∈ o.run (.used a) (refsOf g.used a), ∀ r,
          (if b.isEmpty = true then some (true, a :: v, 0) else isUsedC g o n b (d + 1) (a :: v)) = some r →
          ∃ k, r = (false, a :: v, k) ∧ 1 ≤ k ∧ (∀ cs : List (List Str), cs.Nodup → (∀ c ∈ cs, GTrail g (a :: v) b c) → cs.length ≤ k) ∧
            ∀ c, GTrail g (a :: v) b c → c.length ≤ n := by
        intro b hb r hr
        obtain ⟨h1, h2⟩ := hstep b hb
        rw [if_neg (fun e => h1 (List.isEmpty_iff.1 e))] at hr
        exact ih (by omega) h2 hr
      cases hx : anyRefC (fun ref vis => if ref.isEmpty = true then some (true, vis, 0) else isUsedC g o n ref (d + 1) vis)
          (o.run (.used a) (refsOf g.used a)) (a :: v) with
      | none => rw [hx] at h; cases h
      | some x =>
        rw [hx] at h
        have hall := anyRefC_some (fun b hb r hr => (hq b hb r hr).imp fun k hk => hk.1) hx
        obtain ⟨k0, rfl, -⟩ := anyRefC_idle (fun _ => 0) (fun b hb r hr => (hq b hb r hr).imp fun k hk => ⟨hk.1, Nat.zero_le k⟩) hx
        simp only [filter_ne_self hc] at h
        have h : (false, v, k0 + 1) = r := by
          split at h <;> simp only [Option.some.injEq] at h <;> exact h
        refine ⟨k0 + 1, h.symm, by omega, fun cs hnd hcs => ?_, fun c hcc => ?_⟩
        · have hform : ∀ c ∈ cs, c = [a] ∨ ∃ b c', c = a :: c' ∧ c'.head? = some b ∧ b ∈ o.run (.used a) (refsOf g.used a) ∧ GTrail g (a :: v) b c' := by
            intro c hcc
            cases hcs c hcc with
            | one _ => exact .inl rfl
            | step _ h1 h2 => exact .inr ⟨_, _, rfl, h2.head, mem_run_order.2 (refers_refsOf hg.keys h1), h2⟩
          have hsum := length_le_sum (fun c : List Str => c.tail.head?) cs (o.run (.used a) (refsOf g.used a)) (by
            intro c hcc
            rcases hform c hcc with rfl | ⟨b, c', rfl, h1, h2, -⟩
            · exact .inl rfl
            · exact .inr ⟨b, h2, h1⟩)
          have hone : (cs.filter fun c : List Str => c.tail.head? == none).length ≤ 1 := by
            have hn := hnd.sublist (List.filter_sublist (p := fun c : List Str => c.tail.head? == none))
            have hm : ∀ c ∈ cs.filter (fun c : List Str => c.tail.head? == none), c = [a] := by
              intro c hcc
              obtain ⟨h1, h2⟩ := List.mem_filter.1 hcc
              rcases hform c h1 with rfl | ⟨b, c', rfl, h3, -, -⟩
              · rfl
              · simp [h3] at h2
            generalize cs.filter (fun c : List Str => c.tail.head? == none) = l at hn hm
            match l, hn, hm with
            | [], _, _ => simp
            | [x], _, _ => simp
            | x :: y :: l, hn, hm =>
              have e1 := hm x (by simp)
              have e2 := hm y (by simp)
              rw [e1, e2] at hn
              simp at hn
          have hk := anyRefC_idle (fun b => (cs.filter fun c : List Str => c.tail.head? == some b).length) (by
            intro b hb r hr
            obtain ⟨k, h1, -, h2, -⟩ := hq b hb r hr
            refine ⟨k, h1, ?_⟩
            have hmem : ∀ c ∈ cs.filter (fun c : List Str => c.tail.head? == some b), ∃ c', c = a :: c' ∧ GTrail g (a :: v) b c' := by
              intro c hcc
              obtain ⟨h3, h4⟩ := List.mem_filter.1 hcc
              rcases hform c h3 with rfl | ⟨b', c', rfl, h5, -, h6⟩
              · simp at h4
              · have h4 : c'.head? = some b := by simpa using h4
                rw [h5, Option.some.injEq] at h4
                exact ⟨c', rfl, h4 ▸ h6⟩
            have := h2 ((cs.filter fun c : List Str => c.tail.head? == some b).map List.tail) (nodup_map_on (by
              intro x hx y hy e
              obtain ⟨x', rfl, -⟩ := hmem x hx
              obtain ⟨y', rfl, -⟩ := hmem y hy
              simp only [List.tail_cons] at e
              rw [e]) (hnd.sublist List.filter_sublist)) (by
              intro c hcc
              obtain ⟨x, hx, rfl⟩ := List.mem_map.1 hcc
              obtain ⟨x', rfl, h7⟩ := hmem x hx
              exact h7)
            simpa using this) hx
          obtain ⟨k1, e, hk⟩ := hk
          simp only [Prod.mk.injEq, true_and] at e
          omega
        · cases hcc with
          | one _ => simp
          | step _ h1 h2 =>
            obtain ⟨r, hr⟩ := hall _ (mem_run_order.2 (refers_refsOf hg.keys h1))
            obtain ⟨k, -, -, -, h3⟩ := hq _ (mem_run_order.2 (refers_refsOf hg.keys h1)) r hr
            have := h3 _ h2
            simp only [List.length_cons]
            omega

theorem markLineC_idle {g : Usage} {S : Str → Prop} (hg : Idle g S) {o : Order} {n : Nat} {l : TLine} (ha : S l.label) {v : List Str}
    {r : TLine × List Str × Nat} (h : markLineC g o n l v = some r) :
    ∃ k, r = (l, v, k) ∧ (∀ cs : List (List Str), cs.Nodup → (∀ c ∈ cs, GTrail g v l.label c) → cs.length ≤ k) ∧
      ∀ c, GTrail g v l.label c → c.length ≤ n := by
  unfold markLineC at h
  cases hx : isUsedC g o n l.label 1 v with
  | none => rw [hx] at h; cases h
  | some x =>
    obtain ⟨k, rfl, -, h1, h2⟩ := isUsedC_idle hg (by simp) ha hx
    rw [hx] at h
    have hdata : isDataUsedThroughAliasC g o n l.label v = some (false, v, 0) := by
      unfold isDataUsedThroughAliasC
      rw [hg.data _ ha, run_nil]
      rfl
    simp only [hdata] at h
    unfold isUsedThroughAliasC at h
    cases hal : g.aliased.lookup l.label with
    | none =>
      rw [hal] at h
      simp only [Option.some.injEq] at h
      exact ⟨k, h.symm, h1, h2⟩
    | some b =>
      rw [hal] at h
      simp only at h
      cases hy : isUsedC g o n b 1 v with
      | none => rw [hy] at h; cases h
      | some y =>
        obtain ⟨k', rfl, -, -, -⟩ := isUsedC_idle hg (by simp) (hg.alias _ _ hal) hy
        rw [hy] at h
        simp only [Option.some.injEq] at h
        refine ⟨k + 0 + k', h.symm, fun cs h3 h4 => ?_, h2⟩
        have := h1 cs h3 h4
        omega

theorem markLoopC_idle {S : Str → Prop} {o : Order} {n : Nat} (names : List Str) (hnd : names.Nodup) {p : TParser} {v : List Str}
    {r : TParser × List Str × Nat} (hg : Idle p.usage S) (hS : ∀ a ∈ names, S a) (hp : Points p names)
    (h : p.markLoopC o n names v = some r) :
    (∀ cs : List (List Str), cs.Nodup → (∀ c ∈ cs, ∃ a ∈ names, GTrail p.usage v a c) → cs.length ≤ r.2.2) ∧
      ∀ c, (∃ a ∈ names, GTrail p.usage v a c) → c.length ≤ n := by
  induction names generalizing r with
  | nil =>
    refine ⟨fun cs _ h => ?_, fun c ⟨_, h, _⟩ => by cases h⟩
    cases cs with
    | nil => simp
    | cons c cs =>
      obtain ⟨_, h, _⟩ := h c (by simp)
      cases h
  | cons a names ih =>
    obtain ⟨l, hl, hlab, hname⟩ := hp a List.mem_cons_self
    obtain ⟨hna, hnd⟩ := List.nodup_cons.1 hnd
    unfold TParser.markLoopC at h
    simp only [hl] at h
    cases hm : markLineC p.usage o n l v with
    | none => rw [hm] at h; cases h
    | some x =>
      have ha : S l.label := by rw [hname]; exact hS a List.mem_cons_self
      obtain ⟨k, rfl, h1, h2⟩ := markLineC_idle hg ha hm
      rw [hname] at h1 h2
      rw [hm] at h
      simp only [Option.map_eq_some_iff] at h
      obtain ⟨y, hy, rfl⟩ := h
      have hset : p.lines.set ((p.labelsDefined.lookup a).getD 0 - 1) l = p.lines := by
        obtain ⟨hlt, rfl⟩ := List.getElem?_eq_some_iff.1 hl
        exact List.set_getElem_self hlt
      rw [hset] at hy
      obtain ⟨h3, h4⟩ := ih hnd (fun x hx => hS x (List.mem_cons_of_mem _ hx)) (fun x hx => hp x (List.mem_cons_of_mem _ hx)) hy
      refine ⟨fun cs hcs hc => ?_, fun c ⟨b, hb, hc⟩ => ?_⟩
      · have e := length_split (fun c : List Str => c.head? == some a) cs
        have g1 := h1 (cs.filter fun c : List Str => c.head? == some a) (hcs.sublist List.filter_sublist) (by
          intro c hm
          obtain ⟨h5, h6⟩ := List.mem_filter.1 hm
          obtain ⟨b, hb, h7⟩ := hc c h5
          rw [h7.head] at h6
          have h6 : b = a := by simpa using h6
          exact h6 ▸ h7)
        have g2 := h3 (cs.filter fun c : List Str => !(c.head? == some a)) (hcs.sublist List.filter_sublist) (by
          intro c hm
          obtain ⟨h5, h6⟩ := List.mem_filter.1 hm
          obtain ⟨b, hb, h7⟩ := hc c h5
          rw [h7.head] at h6
          refine ⟨b, (List.mem_cons.1 hb).resolve_left ?_, h7⟩
          simpa using h6)
        show cs.length ≤ k + y.2.2
        omega
      · rcases List.mem_cons.1 hb with rfl | hb
        · exact h2 c hc
        · exact h4 c ⟨b, hb, hc⟩

/-! ### If every label has at most one user -/

/-- Code refers to no label from two places. -/
structure Linear (g : Usage) (S : Str → Prop) : Prop extends CodeOnly g S where
  once : ∀ e ∈ g.used, e.2.Nodup
  one : ∀ a b b', S a → CodeRef g a b → CodeRef g a b' → b = b'

theorem Linear.refs {g : Usage} {S : Str → Prop} (hg : Linear g S) (o : Order) {a : Str} (ha : S a) :
    o.run (.used a) (refsOf g.used a) = [] ∨ ∃ b, o.run (.used a) (refsOf g.used a) = [b] ∧ CodeRef g a b := by
  have hnd : (o.run (.used a) (refsOf g.used a)).Nodup := by
    rw [(o.perm _ _).nodup_iff]
    unfold refsOf
    cases hl : g.used.lookup a with
    | none => simp
    | some rs => exact hg.once _ (mem_of_lookup_str hl)
  have hm : ∀ b ∈ o.run (.used a) (refsOf g.used a), CodeRef g a b := fun b hb => refsOf_refers (mem_run_order.1 hb)
  generalize o.run (.used a) (refsOf g.used a) = l at hnd hm
  match l, hnd, hm with
  | [], _, _ => exact .inl rfl
  | [b], _, hm => exact .inr ⟨b, rfl, hm b (by simp)⟩
  | b :: b' :: l, hnd, hm =>
    rw [hg.one a b b' ha (hm b (by simp)) (hm b' (by simp))] at hnd
    simp at hnd

theorem isUsedC_linear {g : Usage} {S : Str → Prop} (hg : Linear g S) {nodes : List Str} (hn : ∀ a, S a → a ∈ nodes) {o : Order} {n : Nat}
    {a : Str} {d : Nat} (h0 : d ≠ 0) (ha : S a) {v : List Str} {r : Answer} (h : isUsedC g o n a d v = some r) :
    r.2.2 ≤ unseen nodes v + 1 := by
  induction n generalizing a d v r with
  | zero => cases h
  | succ n ih =>
    unfold isUsedC at h
    simp only [if_neg h0, hg.data a ha, hg.weak, refsOf_nil, run_nil, anyRefC] at h
    split at h
    · simp only [Option.some.injEq] at h
      rw [← h]
      exact Nat.le_add_left ..
    · rename_i hc
      have hc : a ∉ v := by simpa using hc
      split at h
      · simp only [Option.some.injEq] at h
        rw [← h]
        exact Nat.le_add_left ..
      · have key : ∀ r, anyRefC (fun ref vis => if ref.isEmpty = true then some (true, vis, 0) else isUsedC g o n ref (d + 1) vis)
            (o.run (.used a) (refsOf g.used a)) (a :: v) = some r → r.2.2 ≤ unseen nodes v := by
          intro r hr
          rcases hg.refs o ha with e | ⟨b, e, hb⟩
          · rw [e] at hr
            simp only [anyRefC, Option.some.injEq] at hr
            rw [← hr]
            exact Nat.zero_le _
          · rw [e] at hr
            simp only [anyRefC] at hr
            by_cases he : b = []
            · subst he
              simp only [List.isEmpty_nil, if_true, Option.some.injEq] at hr
              rw [← hr]
              exact Nat.zero_le _
            · rw [if_neg (fun e => he (List.isEmpty_iff.1 e))] at hr
              cases hx : isUsedC g o n b (d + 1) (a :: v) with
              | none => rw [hx] at hr; cases hr
              | some x =>
                have h1 := ih (by omega) ((hg.closed a b ha hb).resolve_left he) hx
                have h2 := unseen_cons (hn a ha) hc
                rw [hx] at hr
                obtain ⟨b1, v1, k1⟩ := x
                cases b1 <;> simp only [Option.map_some, Answer.add, Option.some.injEq] at hr <;> subst hr <;>
                  simp only [Nat.add_zero] at h1 ⊢ <;> omega
        cases hx : anyRefC (fun ref vis => if ref.isEmpty = true then some (true, vis, 0) else isUsedC g o n ref (d + 1) vis)
            (o.run (.used a) (refsOf g.used a)) (a :: v) with
        | none => rw [hx] at h; cases h
        | some x =>
          have := key x hx
          rw [hx] at h
          obtain ⟨b1, v1, k1⟩ := x
          cases b1 <;> simp only at h
          · split at h <;> simp only [Option.some.injEq] at h <;> subst h <;> simp only [Nat.add_zero] at this ⊢ <;> omega
          · simp only [Option.some.injEq] at h
            subst h
            simp only at this ⊢
            omega

theorem markLineC_linear {g : Usage} {S : Str → Prop} (hg : Linear g S) {nodes : List Str} (hn : ∀ a, S a → a ∈ nodes) {o : Order} {n : Nat}
    {l : TLine} (ha : S l.label) {v : List Str} {r : TLine × List Str × Nat} (h : markLineC g o n l v = some r) :
    r.2.2 ≤ 2 * (nodes.length + 1) := by
  have hq : ∀ a v r, S a → isUsedC g o n a 1 v = some r → r.2.2 ≤ nodes.length + 1 := by
    intro a v r ha hr
    have := isUsedC_linear hg hn (by simp) ha hr
    have := unseen_le nodes v
    omega
  have hdata : ∀ v, isDataUsedThroughAliasC g o n l.label v = some (false, v, 0) := by
    intro v
    unfold isDataUsedThroughAliasC
    rw [hg.data _ ha, run_nil]
    rfl
  have halias : ∀ v r, isUsedThroughAliasC g o n l.label v = some r → r.2.2 ≤ nodes.length + 1 := by
    intro v r hr
    unfold isUsedThroughAliasC at hr
    cases hal : g.aliased.lookup l.label with
    | none =>
      rw [hal] at hr
      simp only [Option.some.injEq] at hr
      rw [← hr]
      exact Nat.zero_le _
    | some b =>
      rw [hal] at hr
      exact hq b v r (hg.alias _ _ hal) hr
  unfold markLineC at h
  cases hx : isUsedC g o n l.label 1 v with
  | none => rw [hx] at h; cases h
  | some x =>
    have h1 := hq _ _ _ ha hx
    rw [hx] at h
    obtain ⟨b, v1, k1⟩ := x
    cases b
    · simp only [hdata] at h
      cases hy : isUsedThroughAliasC g o n l.label v1 with
      | none => rw [hy] at h; cases h
      | some y =>
        have h2 := halias _ _ hy
        rw [hy] at h
        obtain ⟨b, v2, k2⟩ := y
        cases b <;> simp only [Option.some.injEq] at h <;> subst h <;> simp only at h1 h2 ⊢ <;> omega
    · simp only [Option.some.injEq] at h
      subst h
      simp only at h1 ⊢
      omega

theorem markLoopC_linear {S : Str → Prop} {o : Order} {n : Nat} {nodes : List Str} (hn : ∀ a, S a → a ∈ nodes) (names : List Str)
    {p : TParser} {v : List Str} {r : TParser × List Str × Nat} (hg : Linear p.usage S) (hS : ∀ a ∈ names, S a) (hp : Points p names)
    (h : p.markLoopC o n names v = some r) : r.2.2 ≤ names.length * (2 * (nodes.length + 1)) := by
  induction names generalizing p v r with
  | nil =>
    simp only [TParser.markLoopC, Option.some.injEq] at h
    rw [← h]
    exact Nat.zero_le _
  | cons a names ih =>
    obtain ⟨l, hl, hlab, hname⟩ := hp a List.mem_cons_self
    unfold TParser.markLoopC at h
    simp only [hl] at h
    cases hm : markLineC p.usage o n l v with
    | none => rw [hm] at h; cases h
    | some x =>
      obtain ⟨l', v1, k⟩ := x
      have ha : S l.label := by rw [hname]; exact hS a List.mem_cons_self
      have h1 := markLineC_linear hg hn ha hm
      have hm' : markLine p.usage o n l v = some (l', v1) := by rw [← markLineC_forget, hm]; rfl
      obtain ⟨s1, s2, -, -, -⟩ := markLine_same hm'
      have hp' : Points { p with lines := p.lines.set _ l' } names :=
        (show Points p names from fun x hx => hp x (List.mem_cons_of_mem _ hx)).set hl s1 s2
      rw [hm] at h
      simp only [Option.map_eq_some_iff] at h
      obtain ⟨y, hy, rfl⟩ := h
      have h2 := ih (p := { p with lines := p.lines.set _ l' }) hg (fun x hx => hS x (List.mem_cons_of_mem _ hx)) hp' hy
      rw [List.length_cons, Nat.add_mul]
      simp only at h1 ⊢
      omega

/-! ### How deep the calls are nested -/

theorem isUsed_nested {g : Usage} {S : Str → Prop} (hg : CodeOnly g S) {nodes : List Str} (hn : ∀ a, S a → a ∈ nodes) {o : Order} {n : Nat}
    {a : Str} {d : Nat} (h0 : d ≠ 0) (ha : S a) {v : List Str} (h : unseen nodes v + 1 ≤ n) : isUsed g o n a d v ≠ none := by
  induction n generalizing a d v with
  | zero => omega
  | succ n ih =>
    apply isUsed_total
    intro hs hu
    have hsv : startVis d v = v := startVis_pos v (by omega)
    rw [hsv] at hs ⊢
    have hlt := unseen_cons (hn a ha) hs
    have hb : ∀ r ∈ o.run (.used a) (refsOf g.used a), r ≠ [] → S r := fun r hr he =>
      (hg.closed a r ha (refsOf_refers (mem_run_order.1 hr))).resolve_left he
    refine ⟨anyRef_total (P := fun w => w = a :: v) (fun r hr w hw => ?_) (fun r hr w w' hw hq => ?_) rfl, fun v1 _ _ => ?_⟩
    · unfold codeCall
      split
      · simp
      · rename_i he
        rw [hw]
        exact ih (by omega) (hb r hr fun e => he (List.isEmpty_iff.2 e)) (by omega)
    · obtain ⟨h1, h2⟩ := codeCall_false hq
      rcases isUsed_chain hg (by omega) (hb r hr h1) h2 with e | ⟨-, e⟩
      · rw [(Prod.mk.inj e).2, hw]
      · cases e
    · rw [hg.data a ha, hg.weak, refsOf_nil, run_nil, run_nil]
      exact ⟨by simp [anyRef], fun v2 _ => by simp [anyRef]⟩

theorem markLine_nested {g : Usage} {S : Str → Prop} (hg : CodeOnly g S) {nodes : List Str} (hn : ∀ a, S a → a ∈ nodes) {o : Order} {n : Nat}
    (h : nodes.length + 1 ≤ n) {l : TLine} (ha : S l.label) (v : List Str) : markLine g o n l v ≠ none := by
  have hq : ∀ a v, S a → isUsed g o n a 1 v ≠ none := fun a v ha =>
    isUsed_nested hg hn (by simp) ha (by have := unseen_le nodes v; omega)
  unfold markLine
  split
  · rename_i e
    exact absurd e (hq _ _ ha)
  · simp
  · rename_i v1 _
    have hdata : isDataUsedThroughAlias g o n l.label v1 = some (false, v1) := by
      unfold isDataUsedThroughAlias
      rw [hg.data _ ha, run_nil]
      rfl
    simp only [hdata]
    unfold isUsedThroughAlias
    cases hal : g.aliased.lookup l.label with
    | none => simp
    | some b =>
      simp only
      split
      · rename_i e
        exact absurd e (hq _ _ (hg.alias _ _ hal))
      · simp
      · simp

theorem markLoop_nested {S : Str → Prop} {nodes : List Str} (hn : ∀ a, S a → a ∈ nodes) {o : Order} {n : Nat} (h : nodes.length + 1 ≤ n)
    (names : List Str) {p : TParser} {v : List Str} (hg : CodeOnly p.usage S) (hS : ∀ a ∈ names, S a) (hp : Points p names) :
    p.markLoop o n names v ≠ none := by
  induction names generalizing p v with
  | nil => simp [TParser.markLoop]
  | cons a names ih =>
    obtain ⟨l, hl, hlab, hname⟩ := hp a List.mem_cons_self
    unfold TParser.markLoop
    simp only [hl]
    split
    · rename_i e
      exact absurd e (markLine_nested hg hn h (by rw [hname]; exact hS a List.mem_cons_self) v)
    · rename_i l' w hm
      obtain ⟨s1, s2, -, -, -⟩ := markLine_same hm
      exact ih (p := { p with lines := p.lines.set _ l' }) hg (fun x hx => hS x (List.mem_cons_of_mem _ hx))
        ((show Points p names from fun x hx => hp x (List.mem_cons_of_mem _ hx)).set hl s1 s2)

open Classical in
/-- The number of `nodes` that are ahead of a label, one more for other labels. -/
noncomputable def aheadIn (nodes : List Str) (g : Usage) (a : Str) : Nat :=
  nodes.countP (fun x => decide (Leads g a x)) + if a ∈ nodes then 0 else 1

theorem ranked_aheadIn {g : Usage} (h : NoDataCycle g) {nodes : List Str} (hn : ∀ a b, CodeRef g a b ∨ DataRef g a b → b ∈ nodes) :
    Ranked g (aheadIn nodes g) := by
  classical
  refine ⟨fun a b hu hr => ?_, fun a b hu hr => ?_⟩
  · unfold aheadIn
    rw [if_pos (hn a b (.inl hr))]
    refine Nat.le_trans (List.countP_mono_left fun x _ hx => ?_) (Nat.le_add_right _ _)
    rw [decide_eq_true_eq] at hx ⊢
    exact .step hu (.inl hr) hx
  · have hle : nodes.countP (fun x => decide (Leads g b x)) ≤ nodes.countP fun x => decide (Leads g a x) := by
      refine List.countP_mono_left fun x _ hx => ?_
      rw [decide_eq_true_eq] at hx ⊢
      exact .step hu (.inr hr) hx
    unfold aheadIn
    rw [if_pos (hn a b (.inr hr))]
    split
    · rename_i ha
      have := countP_lt (p := fun x => decide (Leads g b x)) (q := fun x => decide (Leads g a x)) ha
        (by rw [decide_eq_false_iff_not]; exact h a b hu hr) (by rw [decide_eq_true_eq]; exact .refl)
        (by intro x _ hx; rw [decide_eq_true_eq] at hx ⊢; exact .step hu (.inr hr) hx)
      omega
    · omega

theorem isUsed_acyclic {g : Usage} (h : NoDataCycle g) {nodes : List Str} (hn : ∀ a b, CodeRef g a b ∨ DataRef g a b → b ∈ nodes)
    {o : Order} {n : Nat} (hl : nodes.length * nodes.length + 4 * nodes.length + 1 ≤ n) {a : Str} (ha : a ∈ nodes) (v : List Str) :
    isUsed g o n a 1 v ≠ none := by
  have hR : ∀ a ∈ nodes, aheadIn nodes g a ≤ nodes.length := by
    intro a ha
    unfold aheadIn
    rw [if_pos ha]
    exact List.countP_le_length
  refine isUsed_ends (ranked_aheadIn h hn) hn hR ha ?_
  have := hR a ha
  rw [Nat.mul_add]
  omega

end AsmParser
