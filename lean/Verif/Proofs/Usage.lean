/-
Helper lemmas: the usage analysis of labels.
-/
import Verif.Spec.Usage

namespace AsmParser

/-! ### Iterating over references -/

theorem refsOf_refers {m : List (Str × List Str)} {a b : Str} (h : b ∈ refsOf m a) : Refers m a b := by
  unfold refsOf at h
  cases hl : m.lookup a with
  | none => rw [hl] at h; exact absurd h (by simp)
  | some rs =>
    rw [hl] at h
    refine ⟨rs, ?_, h⟩
    clear h
    induction m with
    | nil => exact absurd hl (by simp)
    | cons e m ih =>
      rw [List.lookup_cons] at hl
      split at hl
      · rename_i he
        simp only [Option.some.injEq] at hl
        have : a = e.1 := by simpa using he
        rw [this, ← hl]; simp
      · exact List.mem_cons_of_mem _ (ih hl)

theorem mem_run_order {o : Order} {k : OrdKey} {l : List Str} {x : Str} : x ∈ o.run k l ↔ x ∈ l := (o.perm k l).mem_iff

/-- A loop that returns true found a reference that returned true. -/
theorem anyRef_true {q : Str → List Str → Option (Bool × List Str)} {rs : List Str} {v v' : List Str}
    (h : anyRef q rs v = some (true, v')) : ∃ r ∈ rs, ∃ w, q r w = some (true, v') := by
  induction rs generalizing v with
  | nil => simp [anyRef] at h
  | cons r rs ih =>
    unfold anyRef at h
    split at h
    · exact absurd h (by simp)
    · rename_i v2 hq
      simp only [Option.some.injEq, Prod.mk.injEq, true_and] at h
      subst h
      exact ⟨r, by simp, v, hq⟩
    · obtain ⟨r', h1, h2⟩ := ih h
      exact ⟨r', List.mem_cons_of_mem _ h1, h2⟩

/-- Induction over a loop that returns false. -/
theorem anyRef_false {q : Str → List Str → Option (Bool × List Str)} {P : List Str → Prop} {rs : List Str} {v v' : List Str}
    (hP : ∀ r ∈ rs, ∀ v v', P v → q r v = some (false, v') → P v') (hv : P v) (h : anyRef q rs v = some (false, v')) :
    P v' ∧ ∀ r ∈ rs, ∃ w w', P w ∧ q r w = some (false, w') := by
  induction rs generalizing v with
  | nil =>
    simp only [anyRef, Option.some.injEq, Prod.mk.injEq, true_and] at h
    subst h
    exact ⟨hv, by simp⟩
  | cons r rs ih =>
    unfold anyRef at h
    split at h
    · exact absurd h (by simp)
    · exact absurd h (by simp)
    · rename_i v2 hq
      obtain ⟨h1, h2⟩ := ih (fun r hr => hP r (List.mem_cons_of_mem _ hr)) (hP r (by simp) _ _ hv hq) h
      refine ⟨h1, ?_⟩
      intro r' hr'
      rcases List.mem_cons.1 hr' with rfl | hr'
      · exact ⟨v, v2, hv, hq⟩
      · exact h2 r' hr'

/-- The loop terminates if every call does. -/
theorem anyRef_total {q : Str → List Str → Option (Bool × List Str)} {P : List Str → Prop} {rs : List Str} {v : List Str}
    (ht : ∀ r ∈ rs, ∀ v, P v → q r v ≠ none) (hP : ∀ r ∈ rs, ∀ v v', P v → q r v = some (false, v') → P v') (hv : P v) :
    anyRef q rs v ≠ none := by
  induction rs generalizing v with
  | nil => simp [anyRef]
  | cons r rs ih =>
    unfold anyRef
    split
    · rename_i hq; exact absurd hq (ht r (by simp) v hv)
    · simp
    · rename_i v2 hq
      exact ih (fun r hr => ht r (List.mem_cons_of_mem _ hr)) (fun r hr => hP r (List.mem_cons_of_mem _ hr))
        (hP r (by simp) _ _ hv hq)

theorem anyRef_mono {q q' : Str → List Str → Option (Bool × List Str)} {rs : List Str} {v : List Str} {x : Bool × List Str}
    (hq : ∀ r ∈ rs, ∀ v x, q r v = some x → q' r v = some x) (h : anyRef q rs v = some x) : anyRef q' rs v = some x := by
  induction rs generalizing v with
  | nil => simpa [anyRef] using h
  | cons r rs ih =>
    unfold anyRef at h ⊢
    split at h
    · exact absurd h (by simp)
    · rename_i v2 he
      rw [hq r (by simp) _ _ he]; exact h
    · rename_i v2 he
      rw [hq r (by simp) _ _ he]
      exact ih (fun r hr => hq r (List.mem_cons_of_mem _ hr)) h

/-! ### One call of `isUsed` -/

/-- The three loops of a call. -/
def codeCall (g : Usage) (o : Order) (n : Nat) (depth : Nat) (ref : Str) (vis : List Str) : Option (Bool × List Str) :=
  if ref.isEmpty then some (true, vis) else isUsed g o n ref (depth + 1) vis

/-- The visited labels at the start of a call. -/
def startVis (depth : Nat) (vis : List Str) : List Str := if depth = 0 then [] else vis

theorem isUsed_eq (g : Usage) (o : Order) (n : Nat) (a : Str) (d : Nat) (v : List Str) :
    isUsed g o (n + 1) a d v =
      if (startVis d v).contains a = true then some (false, startVis d v)
      else if g.usercode.contains a = true then some (true, a :: startVis d v)
      else
        match anyRef (codeCall g o n d) (o.run (.used a) (refsOf g.used a)) (a :: startVis d v) with
        | none => none
        | some (true, vis) => some (true, vis)
        | some (false, vis) =>
          if d > 0 then
            match anyRef (fun r v => isUsed g o n r (d - 1) v) (o.run (.weak a) (refsOf g.weaklyUsed a)) vis with
            | none => none
            | some (true, vis) => some (true, vis)
            | some (false, vis) =>
              match anyRef (fun r v => isUsed g o n r (d - 1) v) (o.run (.data a) (refsOf g.dataUsed a)) vis with
              | none => none
              | some (true, vis) => some (true, vis)
              | some (false, vis) => some (false, vis.filter (· != a))
          else some (false, vis.filter (· != a)) := rfl

/-- What a call that ends does. -/
inductive UsedCall (g : Usage) (o : Order) (n : Nat) (a : Str) (d : Nat) (v : List Str) : Bool → List Str → Prop
  | seen : a ∈ startVis d v → UsedCall g o n a d v false (startVis d v)
  | visible : a ∉ startVis d v → a ∈ g.usercode → UsedCall g o n a d v true (a :: startVis d v)
  | code {v'} : a ∉ startVis d v → a ∉ g.usercode →
      anyRef (codeCall g o n d) (o.run (.used a) (refsOf g.used a)) (a :: startVis d v) = some (true, v') →
      UsedCall g o n a d v true v'
  | weak {v1 v'} : a ∉ startVis d v → a ∉ g.usercode → 0 < d →
      anyRef (codeCall g o n d) (o.run (.used a) (refsOf g.used a)) (a :: startVis d v) = some (false, v1) →
      anyRef (fun r v => isUsed g o n r (d - 1) v) (o.run (.weak a) (refsOf g.weaklyUsed a)) v1 = some (true, v') →
      UsedCall g o n a d v true v'
  | data {v1 v2 v'} : a ∉ startVis d v → a ∉ g.usercode → 0 < d →
      anyRef (codeCall g o n d) (o.run (.used a) (refsOf g.used a)) (a :: startVis d v) = some (false, v1) →
      anyRef (fun r v => isUsed g o n r (d - 1) v) (o.run (.weak a) (refsOf g.weaklyUsed a)) v1 = some (false, v2) →
      anyRef (fun r v => isUsed g o n r (d - 1) v) (o.run (.data a) (refsOf g.dataUsed a)) v2 = some (true, v') →
      UsedCall g o n a d v true v'
  | unusedTop {v1} : a ∉ startVis d v → a ∉ g.usercode → d = 0 →
      anyRef (codeCall g o n d) (o.run (.used a) (refsOf g.used a)) (a :: startVis d v) = some (false, v1) →
      UsedCall g o n a d v false (v1.filter (· != a))
  | unused {v1 v2 v3} : a ∉ startVis d v → a ∉ g.usercode → 0 < d →
      anyRef (codeCall g o n d) (o.run (.used a) (refsOf g.used a)) (a :: startVis d v) = some (false, v1) →
      anyRef (fun r v => isUsed g o n r (d - 1) v) (o.run (.weak a) (refsOf g.weaklyUsed a)) v1 = some (false, v2) →
      anyRef (fun r v => isUsed g o n r (d - 1) v) (o.run (.data a) (refsOf g.dataUsed a)) v2 = some (false, v3) →
      UsedCall g o n a d v false (v3.filter (· != a))

theorem isUsed_call {g : Usage} {o : Order} {n : Nat} {a : Str} {d : Nat} {v : List Str} {b : Bool} {v' : List Str}
    (h : isUsed g o (n + 1) a d v = some (b, v')) : UsedCall g o n a d v b v' := by
  rw [isUsed_eq] at h
  split at h
  · rename_i hs
    simp only [Option.some.injEq, Prod.mk.injEq] at h
    rw [← h.1, ← h.2]
    exact .seen (by simpa using hs)
  · rename_i hs
    have hs' : a ∉ startVis d v := by simpa using hs
    split at h
    · rename_i hu
      simp only [Option.some.injEq, Prod.mk.injEq] at h
      rw [← h.1, ← h.2]
      exact .visible hs' (by simpa using hu)
    · rename_i hu
      have hu' : a ∉ g.usercode := by simpa using hu
      split at h
      · exact absurd h (by simp)
      · rename_i v1 h1
        simp only [Option.some.injEq, Prod.mk.injEq] at h
        rw [← h.1, ← h.2]
        exact .code hs' hu' h1
      · rename_i v1 h1
        split at h
        · rename_i hd
          split at h
          · exact absurd h (by simp)
          · rename_i v2 h2
            simp only [Option.some.injEq, Prod.mk.injEq] at h
            rw [← h.1, ← h.2]
            exact .weak hs' hu' hd h1 h2
          · rename_i v2 h2
            split at h
            · exact absurd h (by simp)
            · rename_i v3 h3
              simp only [Option.some.injEq, Prod.mk.injEq] at h
              rw [← h.1, ← h.2]
              exact .data hs' hu' hd h1 h2 h3
            · rename_i v3 h3
              simp only [Option.some.injEq, Prod.mk.injEq] at h
              rw [← h.1, ← h.2]
              exact .unused hs' hu' hd h1 h2 h3
        · rename_i hd
          simp only [Option.some.injEq, Prod.mk.injEq] at h
          rw [← h.1, ← h.2]
          exact .unusedTop hs' hu' (by omega) h1

/-- A call ends if its loops do. -/
theorem isUsed_total {g : Usage} {o : Order} {n : Nat} {a : Str} {d : Nat} {v : List Str}
    (h : a ∉ startVis d v → a ∉ g.usercode →
      anyRef (codeCall g o n d) (o.run (.used a) (refsOf g.used a)) (a :: startVis d v) ≠ none ∧
      ∀ v1, anyRef (codeCall g o n d) (o.run (.used a) (refsOf g.used a)) (a :: startVis d v) = some (false, v1) → 0 < d →
        anyRef (fun r v => isUsed g o n r (d - 1) v) (o.run (.weak a) (refsOf g.weaklyUsed a)) v1 ≠ none ∧
        ∀ v2, anyRef (fun r v => isUsed g o n r (d - 1) v) (o.run (.weak a) (refsOf g.weaklyUsed a)) v1 = some (false, v2) →
          anyRef (fun r v => isUsed g o n r (d - 1) v) (o.run (.data a) (refsOf g.dataUsed a)) v2 ≠ none) :
    isUsed g o (n + 1) a d v ≠ none := by
  rw [isUsed_eq]
  split
  · simp
  · rename_i hs
    have hs' : a ∉ startVis d v := by simpa using hs
    split
    · simp
    · rename_i hu
      obtain ⟨h1, h2⟩ := h hs' (by simpa using hu)
      split
      · rename_i h3; exact absurd h3 h1
      · simp
      · rename_i v1 h3
        split
        · rename_i hd
          obtain ⟨h4, h5⟩ := h2 _ h3 hd
          split
          · rename_i h6; exact absurd h6 h4
          · simp
          · rename_i v2 h6
            split
            · rename_i h7; exact absurd h7 (h5 _ h6)
            · simp
            · simp
        · simp

/-- More steps do not change the result. -/
theorem isUsed_mono {g : Usage} {o : Order} {n : Nat} {a : Str} {d : Nat} {v : List Str} {x : Bool × List Str}
    (h : isUsed g o n a d v = some x) (m : Nat) (hm : n ≤ m) : isUsed g o m a d v = some x := by
  induction n generalizing a d v x m with
  | zero => simp [isUsed] at h
  | succ n ih =>
    obtain ⟨m, rfl⟩ : ∃ k, m = k + 1 := ⟨m - 1, by omega⟩
    have hm' : n ≤ m := by omega
    have hq : ∀ d' (r : Str) (v : List Str) x, isUsed g o n r d' v = some x → isUsed g o m r d' v = some x :=
      fun d' r v x h => ih h m hm'
    have hc : ∀ d' (r : Str) (v : List Str) x, codeCall g o n d' r v = some x → codeCall g o m d' r v = some x := by
      intro d' r v x h
      unfold codeCall at h ⊢
      split
      · rename_i hr; rw [if_pos hr] at h; exact h
      · rename_i hr; rw [if_neg hr] at h; exact hq _ _ _ _ h
    rw [isUsed_eq] at h ⊢
    split at h
    · rename_i hs; rw [if_pos hs]; exact h
    · rename_i hs
      rw [if_neg hs]
      split at h
      · rename_i hu; rw [if_pos hu]; exact h
      · rename_i hu
        rw [if_neg hu]
        split at h
        · exact absurd h (by simp)
        · rename_i v1 h1
          rw [anyRef_mono
            (fun r _ v x => hc d r v x) h1]
          exact h
        · rename_i v1 h1
          rw [anyRef_mono
            (fun r _ v x => hc d r v x) h1]
          simp only
          split at h
          · rename_i hd
            rw [if_pos hd]
            split at h
            · exact absurd h (by simp)
            · rename_i v2 h2
              rw [anyRef_mono (fun r _ v x => hq _ r v x) h2]; exact h
            · rename_i v2 h2
              rw [anyRef_mono (fun r _ v x => hq _ r v x) h2]
              simp only
              split at h
              · exact absurd h (by simp)
              · rename_i v3 h3
                rw [anyRef_mono (fun r _ v x => hq _ r v x) h3]; exact h
              · rename_i v3 h3
                rw [anyRef_mono (fun r _ v x => hq _ r v x) h3]; exact h
          · rename_i hd
            rw [if_neg hd]; exact h

/-! ### Soundness -/

theorem codeCall_true {g : Usage} {o : Order} {n d : Nat} {r : Str} {v v' : List Str} (h : codeCall g o n d r v = some (true, v')) :
    r = [] ∨ isUsed g o n r (d + 1) v = some (true, v') := by
  unfold codeCall at h
  split at h
  · rename_i hr; exact .inl (by simpa using hr)
  · exact .inr h

/-- Only reachable labels are found to be used. -/
theorem isUsed_sound {g : Usage} {o : Order} {n : Nat} {a : Str} {d : Nat} {v v' : List Str}
    (h : isUsed g o n a d v = some (true, v')) : Reachable g a := by
  induction n generalizing a d v v' with
  | zero => simp [isUsed] at h
  | succ n ih =>
    cases isUsed_call h with
    | visible _ hu => exact .visible hu
    | code _ _ h1 =>
      obtain ⟨r, hr, w, hq⟩ := anyRef_true h1
      have hr := refsOf_refers (mem_run_order.1 hr)
      rcases codeCall_true hq with rfl | hq
      · exact .outside hr
      · exact .code hr (ih hq)
    | weak _ _ _ _ h2 =>
      obtain ⟨r, hr, w, hq⟩ := anyRef_true h2
      exact .data (.inr (refsOf_refers (mem_run_order.1 hr))) (ih hq)
    | data _ _ _ _ _ h2 =>
      obtain ⟨r, hr, w, hq⟩ := anyRef_true h2
      exact .data (.inl (refsOf_refers (mem_run_order.1 hr))) (ih hq)

/-! ### Which labels stay marked as visited -/

theorem codeCall_false {g : Usage} {o : Order} {n d : Nat} {r : Str} {v v' : List Str}
    (h : codeCall g o n d r v = some (false, v')) : r ≠ [] ∧ isUsed g o n r (d + 1) v = some (false, v') := by
  unfold codeCall at h
  split at h
  · exact absurd h (by simp)
  · rename_i hr
    exact ⟨by simpa using hr, h⟩

theorem startVis_pos {d : Nat} (v : List Str) (h : 0 < d) : startVis d v = v := by
  unfold startVis
  rw [if_neg (by omega)]

theorem startVis_sub {d : Nat} {v : List Str} {x : Str} (h : x ∈ startVis d v) : x ∈ v := by
  unfold startVis at h
  split at h
  · exact absurd h (by simp)
  · exact h

/-- A call that returns false marks nothing. -/
theorem isUsed_false_sub {g : Usage} {o : Order} {n : Nat} {a : Str} {d : Nat} {v v' : List Str}
    (h : isUsed g o n a d v = some (false, v')) : ∀ x ∈ v', x ∈ startVis d v := by
  induction n generalizing a d v v' with
  | zero => simp [isUsed] at h
  | succ n ih =>
    have hc : ∀ d (r : Str) (w w' : List Str), (∀ x ∈ w, x ∈ a :: startVis d v) → codeCall g o n d r w = some (false, w') →
        ∀ x ∈ w', x ∈ a :: startVis d v := by
      intro d r w w' hw hq x hx
      exact hw x (startVis_sub (ih (codeCall_false hq).2 x hx))
    have hq : ∀ d' (r : Str) (w w' : List Str), (∀ x ∈ w, x ∈ a :: startVis d v) → isUsed g o n r d' w = some (false, w') →
        ∀ x ∈ w', x ∈ a :: startVis d v := by
      intro d' r w w' hw hq x hx
      exact hw x (startVis_sub (ih hq x hx))
    have hf : ∀ w : List Str, (∀ x ∈ w, x ∈ a :: startVis d v) → ∀ x ∈ w.filter (· != a), x ∈ startVis d v := by
      intro w hw x hx
      rw [List.mem_filter] at hx
      rcases List.mem_cons.1 (hw x hx.1) with rfl | h
      · exact absurd hx.2 (by simp)
      · exact h
    cases isUsed_call h with
    | seen hs => exact fun x hx => hx
    | unusedTop _ _ hd h1 =>
      exact hf _ (anyRef_false (P := fun w => ∀ x ∈ w, x ∈ a :: startVis d v) (fun r _ => hc d r) (fun x hx => hx) h1).1
    | unused _ _ _ h1 h2 h3 =>
      have g1 := (anyRef_false (P := fun w => ∀ x ∈ w, x ∈ a :: startVis d v) (fun r _ => hc d r) (fun x hx => hx) h1).1
      have g2 := (anyRef_false (P := fun w => ∀ x ∈ w, x ∈ a :: startVis d v) (fun r _ => hq _ r) g1 h2).1
      exact hf _ (anyRef_false (P := fun w => ∀ x ∈ w, x ∈ a :: startVis d v) (fun r _ => hq _ r) g2 h3).1

/-- Induction over a loop, whatever it returns. -/
theorem anyRef_inv {q : Str → List Str → Option (Bool × List Str)} {P : List Str → Prop} {rs : List Str} {v v' : List Str} {b : Bool}
    (hP : ∀ r ∈ rs, ∀ v b v', P v → q r v = some (b, v') → P v') (hv : P v) (h : anyRef q rs v = some (b, v')) : P v' := by
  induction rs generalizing v with
  | nil =>
    simp only [anyRef, Option.some.injEq, Prod.mk.injEq] at h
    rw [← h.2]; exact hv
  | cons r rs ih =>
    unfold anyRef at h
    split at h
    · exact absurd h (by simp)
    · rename_i v2 hq
      simp only [Option.some.injEq, Prod.mk.injEq] at h
      rw [← h.2]
      exact hP r (by simp) _ _ _ hv hq
    · rename_i v2 hq
      exact ih (fun r hr => hP r (List.mem_cons_of_mem _ hr)) (hP r (by simp) _ _ _ hv hq) h

/-- Only labels that refer to the label, directly or indirectly, get marked. -/
theorem isUsed_marks {g : Usage} {o : Order} {n : Nat} {a : Str} {d : Nat} {v v' : List Str} {b : Bool}
    (h : isUsed g o n a d v = some (b, v')) : ∀ x ∈ v', x ∈ v ∨ Leads g a x := by
  induction n generalizing a d v v' b with
  | zero => simp [isUsed] at h
  | succ n ih =>
    have h0 : ∀ x ∈ a :: startVis d v, x ∈ v ∨ Leads g a x := by
      intro x hx
      rcases List.mem_cons.1 hx with rfl | hx
      · exact .inr .refl
      · exact .inl (startVis_sub hx)
    have hq : a ∉ g.usercode → ∀ d' (r : Str), (CodeRef g a r ∨ DataRef g a r) → ∀ (w : List Str) b (w' : List Str),
        (∀ x ∈ w, x ∈ v ∨ Leads g a x) → isUsed g o n r d' w = some (b, w') → ∀ x ∈ w', x ∈ v ∨ Leads g a x := by
      intro hu d' r hr w b w' hw hq x hx
      rcases ih hq x hx with h | h
      · exact hw x h
      · exact .inr (.step hu hr h)
    have hc : a ∉ g.usercode → ∀ (r : Str), CodeRef g a r → ∀ (w : List Str) b (w' : List Str),
        (∀ x ∈ w, x ∈ v ∨ Leads g a x) → codeCall g o n d r w = some (b, w') → ∀ x ∈ w', x ∈ v ∨ Leads g a x := by
      intro hu r hr w b w' hw hq'
      unfold codeCall at hq'
      split at hq'
      · simp only [Option.some.injEq, Prod.mk.injEq] at hq'
        rw [← hq'.2]; exact hw
      · exact hq hu _ r (.inl hr) w b w' hw hq'
    have l1 : a ∉ g.usercode → ∀ {b w'}, anyRef (codeCall g o n d) (o.run (.used a) (refsOf g.used a)) (a :: startVis d v) = some (b, w') →
        ∀ x ∈ w', x ∈ v ∨ Leads g a x := fun hu {b w'} h1 =>
      anyRef_inv (P := fun w => ∀ x ∈ w, x ∈ v ∨ Leads g a x) (fun r hr => hc hu r (refsOf_refers (mem_run_order.1 hr))) h0 h1
    have l2 : a ∉ g.usercode → ∀ {w b w'}, (∀ x ∈ w, x ∈ v ∨ Leads g a x) →
        anyRef (fun r v => isUsed g o n r (d - 1) v) (o.run (.weak a) (refsOf g.weaklyUsed a)) w = some (b, w') →
        ∀ x ∈ w', x ∈ v ∨ Leads g a x := fun hu {w b w'} hw h1 =>
      anyRef_inv (P := fun w => ∀ x ∈ w, x ∈ v ∨ Leads g a x)
        (fun r hr => hq hu _ r (.inr (.inr (refsOf_refers (mem_run_order.1 hr))))) hw h1
    have l3 : a ∉ g.usercode → ∀ {w b w'}, (∀ x ∈ w, x ∈ v ∨ Leads g a x) →
        anyRef (fun r v => isUsed g o n r (d - 1) v) (o.run (.data a) (refsOf g.dataUsed a)) w = some (b, w') →
        ∀ x ∈ w', x ∈ v ∨ Leads g a x := fun hu {w b w'} hw h1 =>
      anyRef_inv (P := fun w => ∀ x ∈ w, x ∈ v ∨ Leads g a x)
        (fun r hr => hq hu _ r (.inr (.inl (refsOf_refers (mem_run_order.1 hr))))) hw h1
    cases isUsed_call h with
    | seen _ => exact fun x hx => .inl (startVis_sub hx)
    | visible _ _ => exact h0
    | code _ hu h1 => exact l1 hu h1
    | weak _ hu _ h1 h2 => exact l2 hu (l1 hu h1) h2
    | data _ hu _ h1 h2 h3 => exact l3 hu (l2 hu (l1 hu h1) h2) h3
    | unusedTop _ hu _ h1 => exact fun x hx => l1 hu h1 x (List.mem_filter.1 hx).1
    | unused _ hu _ h1 h2 h3 => exact fun x hx => l3 hu (l2 hu (l1 hu h1) h2) h3 x (List.mem_filter.1 hx).1

/-! ### Completeness for references from code -/

theorem CodeReachable.anti {g : Usage} {v w : List Str} {a : Str} (h : CodeReachable g v a) (hw : ∀ x ∈ w, x ∈ v) :
    CodeReachable g w a := by
  induction h with
  | visible h1 h2 => exact .visible (fun h => h1 (hw _ h)) h2
  | outside h1 h2 => exact .outside (fun h => h1 (hw _ h)) h2
  | code h1 h2 _ ih => exact .code (fun h => h1 (hw _ h)) h2 ih

/-- The first step of a chain that does not come back. -/
def FirstStep (g : Usage) (v : List Str) (a : Str) : Prop :=
  a ∈ g.usercode ∨ CodeRef g a [] ∨ ∃ b, CodeRef g a b ∧ CodeReachable g (a :: v) b

theorem firstStep_aux {g : Usage} {v : List Str} {a b : Str} (h : CodeReachable g v b) :
    CodeReachable g (a :: v) b ∨ FirstStep g v a := by
  induction h with
  | @visible b h1 h2 =>
    by_cases e : b = a
    · subst e; exact .inr (.inl h2)
    · exact .inl (.visible (by simp [e, h1]) h2)
  | @outside b h1 h2 =>
    by_cases e : b = a
    · subst e; exact .inr (.inr (.inl h2))
    · exact .inl (.outside (by simp [e, h1]) h2)
  | @code b c h1 h2 _ ih =>
    rcases ih with ih | ih
    · by_cases e : b = a
      · subst e; exact .inr (.inr (.inr ⟨c, h2, ih⟩))
      · exact .inl (.code (by simp [e, h1]) h2 ih)
    · exact .inr ih

theorem CodeReachable.first {g : Usage} {v : List Str} {a : Str} (h : CodeReachable g v a) : a ∉ v ∧ FirstStep g v a := by
  have hn : a ∉ v := by cases h <;> assumption
  refine ⟨hn, ?_⟩
  rcases firstStep_aux (a := a) h with h' | h'
  · have : a ∉ a :: v := by cases h' <;> assumption
    exact absurd (by simp) this
  · exact h'

theorem lookup_of_mem {β : Type} {m : List (Str × β)} {a : Str} {rs : β} (hk : (m.map (·.1)).Nodup) (h : (a, rs) ∈ m) :
    m.lookup a = some rs := by
  induction m with
  | nil => exact absurd h (by simp)
  | cons e m ih =>
    rw [List.map_cons, List.nodup_cons] at hk
    rw [List.lookup_cons]
    rcases List.mem_cons.1 h with rfl | h
    · simp
    · have : a ≠ e.1 := by
        rintro rfl
        exact hk.1 (List.mem_map.2 ⟨_, h, rfl⟩)
      have hb : (a == e.1) = false := by simpa using this
      rw [hb]
      exact ih hk.2 h

theorem refers_refsOf {m : List (Str × List Str)} {a b : Str} (hk : (m.map (·.1)).Nodup) (h : Refers m a b) : b ∈ refsOf m a := by
  obtain ⟨rs, h1, h2⟩ := h
  unfold refsOf
  rw [lookup_of_mem hk h1]
  exact h2

/-- A call that returns false has overlooked no chain of references from code that avoids the visited labels. -/
theorem isUsed_complete {g : Usage} (hk : (g.used.map (·.1)).Nodup) {o : Order} {n : Nat} {a : Str} {d : Nat} {v v' : List Str}
    (h : isUsed g o n a d v = some (false, v')) : ¬ CodeReachable g (startVis d v) a := by
  induction n generalizing a d v v' with
  | zero => simp [isUsed] at h
  | succ n ih =>
    intro hr
    obtain ⟨hn, hf⟩ := hr.first
    have main : a ∉ g.usercode → ∀ v1, anyRef (codeCall g o n d) (o.run (.used a) (refsOf g.used a)) (a :: startVis d v) = some (false, v1) →
        False := by
      intro hu v1 h1
      have hP : ∀ r ∈ o.run (.used a) (refsOf g.used a), ∀ w w', (∀ x ∈ w, x ∈ a :: startVis d v) → codeCall g o n d r w = some (false, w') →
          ∀ x ∈ w', x ∈ a :: startVis d v := by
        intro r _ w w' hw hq x hx
        exact hw x (startVis_sub (isUsed_false_sub (codeCall_false hq).2 x hx))
      obtain ⟨-, hall⟩ := anyRef_false (P := fun w => ∀ x ∈ w, x ∈ a :: startVis d v) hP (fun x hx => hx) h1
      rcases hf with hf | hf | ⟨b, hb, hr'⟩
      · exact hu hf
      · obtain ⟨w, w', -, hq⟩ := hall [] (mem_run_order.2 (refers_refsOf hk hf))
        exact (codeCall_false hq).1 rfl
      · obtain ⟨w, w', hw, hq⟩ := hall b (mem_run_order.2 (refers_refsOf hk hb))
        refine ih (codeCall_false hq).2 ?_
        rw [startVis_pos _ (by omega)]
        exact hr'.anti hw
    cases isUsed_call h with
    | seen hs => exact hn hs
    | unusedTop _ hu _ h1 => exact main hu _ h1
    | unused _ hu _ h1 _ _ => exact main hu _ h1

/-! ### Termination -/

/-- Labels that can be reached by following references. -/
structure Ranked (g : Usage) (rank : Str → Nat) : Prop where
  code : ∀ a b, a ∉ g.usercode → CodeRef g a b → rank b ≤ rank a
  data : ∀ a b, a ∉ g.usercode → DataRef g a b → rank b < rank a

/-- The labels of a list that are not visited yet. -/
def unseen (nodes v : List Str) : Nat := nodes.countP fun x => !v.contains x

theorem unseen_le (nodes v : List Str) : unseen nodes v ≤ nodes.length := List.countP_le_length

theorem countP_lt {p q : Str → Bool} {l : List Str} {a : Str} (ha : a ∈ l) (hpa : p a = false) (hqa : q a = true)
    (h : ∀ x ∈ l, p x = true → q x = true) : l.countP p < l.countP q := by
  induction l with
  | nil => exact absurd ha (by simp)
  | cons b l ih =>
    rw [List.forall_mem_cons] at h
    have hle : l.countP p ≤ l.countP q := List.countP_mono_left h.2
    rw [List.countP_cons, List.countP_cons]
    rcases List.mem_cons.1 ha with rfl | ha
    · rw [hpa, hqa]; simp; omega
    · have := ih ha h.2
      by_cases hb : p b = true
      · rw [hb, h.1 hb]; simp; omega
      · simp only [hb]
        split <;> simp at * <;> omega

theorem unseen_cons {nodes v : List Str} {a : Str} (ha : a ∈ nodes) (hv : a ∉ v) : unseen nodes (a :: v) < unseen nodes v := by
  unfold unseen
  refine countP_lt ha ?_ ?_ ?_
  · simp
  · simpa using hv
  · intro x _ hx
    simp only [List.contains_cons, Bool.not_or, Bool.and_eq_true] at hx
    exact hx.2

theorem filter_ne_self {v : List Str} {a : Str} (h : a ∉ v) : (a :: v).filter (· != a) = v := by
  rw [List.filter_cons_of_neg (by simp)]
  rw [List.filter_eq_self]
  intro x hx
  have : x ≠ a := by rintro rfl; exact h hx
  simpa using this

/-- Deep calls that return false leave the visited labels as they are. -/
theorem isUsed_false_deep {g : Usage} {rank : Str → Nat} (hr : Ranked g rank) {o : Order} {n : Nat} {a : Str} {d : Nat} {v v' : List Str}
    (hd : rank a < d) (h : isUsed g o n a d v = some (false, v')) : v' = v := by
  induction n generalizing a d v v' with
  | zero => simp [isUsed] at h
  | succ n ih =>
    have hs : startVis d v = v := startVis_pos v (by omega)
    cases isUsed_call h with
    | seen _ => exact hs
    | unusedTop _ _ h0 _ => omega
    | unused hn hu h0 h1 h2 h3 =>
      rw [hs] at hn h1
      have hc : ∀ r ∈ o.run (.used a) (refsOf g.used a), ∀ w w', w = a :: v → codeCall g o n d r w = some (false, w') → w' = a :: v := by
        intro r hr' w w' hw hq
        have := hr.code a r hu (refsOf_refers (mem_run_order.1 hr'))
        rw [ih (by omega) (codeCall_false hq).2, hw]
      have e1 := (anyRef_false (P := fun w => w = a :: v) hc rfl h1).1
      have hw2 : ∀ r ∈ o.run (.weak a) (refsOf g.weaklyUsed a), ∀ w w', w = a :: v → isUsed g o n r (d - 1) w = some (false, w') → w' = a :: v := by
        intro r hr' w w' hw hq
        have := hr.data a r hu (.inr (refsOf_refers (mem_run_order.1 hr')))
        rw [ih (by omega) hq, hw]
      have e2 := (anyRef_false (P := fun w => w = a :: v) hw2 e1 h2).1
      have hw3 : ∀ r ∈ o.run (.data a) (refsOf g.dataUsed a), ∀ w w', w = a :: v → isUsed g o n r (d - 1) w = some (false, w') → w' = a :: v := by
        intro r hr' w w' hw hq
        have := hr.data a r hu (.inl (refsOf_refers (mem_run_order.1 hr')))
        rw [ih (by omega) hq, hw]
      have e3 := (anyRef_false (P := fun w => w = a :: v) hw3 e2 h3).1
      rw [e3, filter_ne_self hn]

/-- Deep calls end. -/
theorem isUsed_deep {g : Usage} {rank : Str → Nat} (hr : Ranked g rank) {nodes : List Str}
    (hn : ∀ a b, CodeRef g a b ∨ DataRef g a b → b ∈ nodes) {o : Order} {n : Nat} {a : Str} {d : Nat} {v : List Str}
    (ha : a ∈ nodes) (hd : rank a < d) (h : rank a * (nodes.length + 1) + unseen nodes v + 1 ≤ n) :
    isUsed g o n a d v ≠ none := by
  induction n generalizing a d v with
  | zero => omega
  | succ n ih =>
    apply isUsed_total
    intro hs hu
    have hsv : startVis d v = v := startVis_pos v (by omega)
    rw [hsv] at hs ⊢
    have hlt := unseen_cons ha hs
    have c1 : ∀ r ∈ o.run (.used a) (refsOf g.used a), ∀ w, w = a :: v → codeCall g o n d r w ≠ none := by
      intro r hr' w hw
      have hcr := refsOf_refers (mem_run_order.1 hr')
      have h1 := hr.code a r hu hcr
      have h2 : rank r * (nodes.length + 1) ≤ rank a * (nodes.length + 1) := Nat.mul_le_mul_right _ h1
      unfold codeCall
      split
      · simp
      · refine ih (hn a r (.inl hcr)) (by omega) ?_
        rw [hw]; omega
    have p1 : ∀ r ∈ o.run (.used a) (refsOf g.used a), ∀ w w', w = a :: v → codeCall g o n d r w = some (false, w') → w' = a :: v := by
      intro r hr' w w' hw hq
      have := hr.code a r hu (refsOf_refers (mem_run_order.1 hr'))
      rw [isUsed_false_deep hr (by omega) (codeCall_false hq).2, hw]
    have cd : ∀ r, DataRef g a r → ∀ w, isUsed g o n r (d - 1) w ≠ none := by
      intro r hdr w
      have h1 := hr.data a r hu hdr
      have h2 : (rank r + 1) * (nodes.length + 1) ≤ rank a * (nodes.length + 1) := Nat.mul_le_mul_right _ (by omega)
      rw [Nat.add_mul] at h2
      have := unseen_le nodes w
      exact ih (hn a r (.inr hdr)) (by omega) (by omega)
    refine ⟨anyRef_total (P := fun w => w = a :: v) c1 p1 rfl, fun v1 h1 _ => ⟨?_, fun v2 h2 => ?_⟩⟩
    · exact anyRef_total (P := fun _ => True) (fun r hr' w _ => cd r (.inr (refsOf_refers (mem_run_order.1 hr'))) w)
        (fun _ _ _ _ _ _ => trivial) trivial
    · exact anyRef_total (P := fun _ => True) (fun r hr' w _ => cd r (.inl (refsOf_refers (mem_run_order.1 hr'))) w)
        (fun _ _ _ _ _ _ => trivial) trivial

/-- All calls end. -/
theorem isUsed_ends {g : Usage} {rank : Str → Nat} (hr : Ranked g rank) {nodes : List Str}
    (hn : ∀ a b, CodeRef g a b ∨ DataRef g a b → b ∈ nodes) {R : Nat} (hR : ∀ a ∈ nodes, rank a ≤ R) {o : Order} {n : Nat} {a : Str}
    {d : Nat} {v : List Str} (ha : a ∈ nodes) (h : R * (nodes.length + 1) + nodes.length + 1 + (2 * rank a + 1 - d) ≤ n) :
    isUsed g o n a d v ≠ none := by
  induction n generalizing a d v with
  | zero => omega
  | succ n ih =>
    by_cases hd : rank a < d
    · refine isUsed_deep hr hn ha hd ?_
      have h2 : rank a * (nodes.length + 1) ≤ R * (nodes.length + 1) := Nat.mul_le_mul_right _ (hR a ha)
      have := unseen_le nodes v
      omega
    · apply isUsed_total
      intro hs hu
      have cc : ∀ r ∈ o.run (.used a) (refsOf g.used a), ∀ w, codeCall g o n d r w ≠ none := by
        intro r hr' w
        have hcr := refsOf_refers (mem_run_order.1 hr')
        have h1 := hr.code a r hu hcr
        unfold codeCall
        split
        · simp
        · exact ih (hn a r (.inl hcr)) (by omega)
      have cd : 0 < d → ∀ r, DataRef g a r → ∀ w, isUsed g o n r (d - 1) w ≠ none := by
        intro h0 r hdr w
        have h1 := hr.data a r hu hdr
        exact ih (hn a r (.inr hdr)) (by omega)
      refine ⟨anyRef_total (P := fun _ => True) (fun r hr' w _ => cc r hr' w) (fun _ _ _ _ _ _ => trivial) trivial,
        fun v1 h1 h0 => ⟨?_, fun v2 h2 => ?_⟩⟩
      · exact anyRef_total (P := fun _ => True) (fun r hr' w _ => cd h0 r (.inr (refsOf_refers (mem_run_order.1 hr'))) w)
          (fun _ _ _ _ _ _ => trivial) trivial
      · exact anyRef_total (P := fun _ => True) (fun r hr' w _ => cd h0 r (.inl (refsOf_refers (mem_run_order.1 hr'))) w)
          (fun _ _ _ _ _ _ => trivial) trivial

end AsmParser
