/-
Helper lemmas: the usage analysis and circles of references.
-/
import Verif.Spec.Circles
import Verif.Proofs.UsageLoop
import Verif.Proofs.UsageMarks

namespace AsmParser

attribute [local irreducible] Re.search Re.fullMatch

/-! ### Termination -/

/-- `RefChain`, for a table of references. -/
inductive CountedChain (g : Usage) : Str → Nat → Nat → Str → Prop
  | refl {a} : CountedChain g a 0 0 a
  | code {a b c d x} : a ∉ g.usercode → CodeRef g a b → CountedChain g b c d x → CountedChain g a (c + 1) d x
  | data {a b c d x} : a ∉ g.usercode → DataRef g a b → CountedChain g b c d x → CountedChain g a c (d + 1) x

/-- No circle has as many references from code as from data. -/
def NoBalanced (g : Usage) : Prop := ∀ a n, ¬ CountedChain g a (n + 1) (n + 1) a

theorem CountedChain.leads {g : Usage} {a x : Str} {c d : Nat} (h : CountedChain g a c d x) : Leads g a x := by
  induction h with
  | refl => exact .refl
  | code h1 h2 _ ih => exact .step h1 (.inl h2) ih
  | data h1 h2 _ ih => exact .step h1 (.inr h2) ih

/-- Deep calls end, and leave the visited labels as they are if they return false. -/
theorem isUsed_far {g : Usage} {nodes : List Str} (hn : ∀ a b, CodeRef g a b ∨ DataRef g a b → b ∈ nodes) {o : Order} {n : Nat} :
    ∀ {a : Str} {d : Nat} {v : List Str}, a ∈ nodes → unseen nodes v < d →
      (unseen nodes v < n → isUsed g o n a d v ≠ none) ∧ ∀ v', isUsed g o n a d v = some (false, v') → v' = v := by
  induction n with
  | zero => intro a d v _ _; exact ⟨fun h => absurd h (by omega), fun v' h => absurd h (by simp [isUsed])⟩
  | succ n ih =>
    intro a d v ha hd
    have hs : startVis d v = v := startVis_pos v (by omega)
    have code : ∀ r, CodeRef g a r → a ∉ v → ∀ w, w = a :: v →
        (unseen nodes v < n + 1 → codeCall g o n d r w ≠ none) ∧ ∀ w', codeCall g o n d r w = some (false, w') → w' = a :: v := by
      intro r hr hv w hw
      have hlt := unseen_cons ha hv
      obtain ⟨h1, h2⟩ := ih (d := d + 1) (v := w) (hn a r (.inl hr)) (by rw [hw]; omega)
      refine ⟨fun h => ?_, fun w' h => by rw [h2 _ (codeCall_false h).2, hw]⟩
      unfold codeCall
      split
      · simp
      · exact h1 (by rw [hw]; omega)
    have data : ∀ r, DataRef g a r → a ∉ v → ∀ w, w = a :: v →
        (unseen nodes v < n + 1 → isUsed g o n r (d - 1) w ≠ none) ∧ ∀ w', isUsed g o n r (d - 1) w = some (false, w') → w' = a :: v := by
      intro r hr hv w hw
      have hlt := unseen_cons ha hv
      obtain ⟨h1, h2⟩ := ih (d := d - 1) (v := w) (hn a r (.inr hr)) (by rw [hw]; omega)
      exact ⟨fun h => h1 (by rw [hw]; omega), fun w' h => by rw [h2 _ h, hw]⟩
    constructor
    · intro hlt
      apply isUsed_total
      rw [hs]
      intro hv _
      refine ⟨anyRef_total (P := fun w => w = a :: v) (fun r hr w hw => (code r (refsOf_refers (mem_run_order.1 hr)) hv w hw).1 hlt)
        (fun r hr w w' hw h => (code r (refsOf_refers (mem_run_order.1 hr)) hv w hw).2 w' h) rfl, fun v1 h1 _ => ?_⟩
      have e1 := (anyRef_false (P := fun w => w = a :: v)
        (fun r hr w w' hw h => (code r (refsOf_refers (mem_run_order.1 hr)) hv w hw).2 w' h) rfl h1).1
      refine ⟨anyRef_total (P := fun w => w = a :: v)
        (fun r hr w hw => (data r (.inr (refsOf_refers (mem_run_order.1 hr))) hv w hw).1 hlt)
        (fun r hr w w' hw h => (data r (.inr (refsOf_refers (mem_run_order.1 hr))) hv w hw).2 w' h) e1, fun v2 h2 => ?_⟩
      have e2 := (anyRef_false (P := fun w => w = a :: v)
        (fun r hr w w' hw h => (data r (.inr (refsOf_refers (mem_run_order.1 hr))) hv w hw).2 w' h) e1 h2).1
      exact anyRef_total (P := fun w => w = a :: v)
        (fun r hr w hw => (data r (.inl (refsOf_refers (mem_run_order.1 hr))) hv w hw).1 hlt)
        (fun r hr w w' hw h => (data r (.inl (refsOf_refers (mem_run_order.1 hr))) hv w hw).2 w' h) e2
    · intro v' h
      cases isUsed_call h with
      | seen _ => exact hs
      | unusedTop _ _ h0 _ => omega
      | unused hv hu h0 h1 h2 h3 =>
        rw [hs] at hv h1
        have e1 := (anyRef_false (P := fun w => w = a :: v)
          (fun r hr w w' hw h => (code r (refsOf_refers (mem_run_order.1 hr)) hv w hw).2 w' h) rfl h1).1
        have e2 := (anyRef_false (P := fun w => w = a :: v)
          (fun r hr w w' hw h => (data r (.inr (refsOf_refers (mem_run_order.1 hr))) hv w hw).2 w' h) e1 h2).1
        have e3 := (anyRef_false (P := fun w => w = a :: v)
          (fun r hr w w' hw h => (data r (.inl (refsOf_refers (mem_run_order.1 hr))) hv w hw).2 w' h) e2 h3).1
        rw [e3, filter_ne_self hv]

open Classical in
/-- The number of places, i.e. labels with depths up to `m`, that are ahead of a place. -/
noncomputable def placesAhead (g : Usage) (nodes : List Str) (m : Nat) (a : Str) (d : Nat) : Nat :=
  ((List.range (m + 1)).map fun e => nodes.countP fun x => decide (∃ c k, CountedChain g a c k x ∧ d + c = e + k)).sum

theorem sum_places_lt {α : Type} {f h : α → Nat} {l : List α} {x : α} (hx : x ∈ l) (hlt : f x < h x) (hle : ∀ y ∈ l, f y ≤ h y) :
    (l.map f).sum < (l.map h).sum := by
  induction l with
  | nil => exact absurd hx (by simp)
  | cons y l ih =>
    rw [List.forall_mem_cons] at hle
    have hsum : ∀ l : List α, (∀ y ∈ l, f y ≤ h y) → (l.map f).sum ≤ (l.map h).sum := by
      intro l
      induction l with
      | nil => intro _; exact Nat.le_refl _
      | cons y l ih =>
        intro hle
        rw [List.forall_mem_cons] at hle
        simp only [List.map_cons, List.sum_cons]
        have := ih hle.2
        omega
    simp only [List.map_cons, List.sum_cons]
    rcases List.mem_cons.1 hx with rfl | hx
    · have := hsum l hle.2; omega
    · have := ih hx hle.2; omega

/-- A step leads to a place with fewer places ahead. -/
theorem placesAhead_lt {g : Usage} {nodes : List Str} {m : Nat} {a b : Str} {d e : Nat} (ha : a ∈ nodes) (hd : d ≤ m)
    (hstep : ∀ c k x, CountedChain g b c k x → ∃ c' k', CountedChain g a c' k' x ∧ c' + k' = c + k + 1 ∧ d + c' + k = e + c + k')
    (hno : NoBalanced g) : placesAhead g nodes m b e < placesAhead g nodes m a d := by
  classical
  have hcov : ∀ i x, (∃ c k, CountedChain g b c k x ∧ e + c = i + k) → ∃ c k, CountedChain g a c k x ∧ d + c = i + k := by
    rintro i x ⟨c, k, h1, h2⟩
    obtain ⟨c', k', h3, -, h4⟩ := hstep c k x h1
    exact ⟨c', k', h3, by omega⟩
  unfold placesAhead
  refine sum_places_lt (x := d) (List.mem_range.2 (by omega)) ?_ ?_
  · refine countP_lt ha ?_ ?_ ?_
    · rw [decide_eq_false_iff_not]
      rintro ⟨c, k, h1, h2⟩
      obtain ⟨c', k', h3, h4, h5⟩ := hstep c k a h1
      obtain rfl : c' = k' := by omega
      match c', h3 with
      | 0, _ => omega
      | n + 1, h3 => exact hno a n h3
    · rw [decide_eq_true_eq]; exact ⟨0, 0, .refl, rfl⟩
    · intro x _ hx
      rw [decide_eq_true_eq] at hx ⊢
      exact hcov _ x hx
  · intro i _
    refine List.countP_mono_left fun x _ hx => ?_
    rw [decide_eq_true_eq] at hx ⊢
    exact hcov _ x hx

/-- All calls end. -/
theorem isUsed_ends_balanced {g : Usage} (hno : NoBalanced g) {nodes : List Str}
    (hn : ∀ a b, CodeRef g a b ∨ DataRef g a b → b ∈ nodes) {o : Order} {n : Nat} : ∀ {a : Str} {d : Nat} {v : List Str}, a ∈ nodes →
      placesAhead g nodes nodes.length a d + nodes.length + 1 ≤ n → isUsed g o n a d v ≠ none := by
  induction n with
  | zero => intro a d v _ h; omega
  | succ n ih =>
    intro a d v ha h
    have hle := unseen_le nodes v
    by_cases hd : nodes.length < d
    · exact (isUsed_far hn ha (by omega)).1 (by omega)
    · apply isUsed_total
      intro _ hu
      have cc : ∀ r ∈ o.run (.used a) (refsOf g.used a), ∀ w, codeCall g o n d r w ≠ none := by
        intro r hr w
        have hcr := refsOf_refers (mem_run_order.1 hr)
        have := placesAhead_lt (m := nodes.length) (b := r) (d := d) (e := d + 1) ha (by omega)
          (fun c k x hx => ⟨c + 1, k, .code hu hcr hx, by omega, by omega⟩) hno
        unfold codeCall
        split
        · simp
        · exact ih (hn a r (.inl hcr)) (by omega)
      have cd : 0 < d → ∀ r, DataRef g a r → ∀ w, isUsed g o n r (d - 1) w ≠ none := by
        intro h0 r hdr w
        have := placesAhead_lt (m := nodes.length) (b := r) (d := d) (e := d - 1) ha (by omega)
          (fun c k x hx => ⟨c, k + 1, .data hu hdr hx, by omega, by omega⟩) hno
        exact ih (hn a r (.inr hdr)) (by omega)
      refine ⟨anyRef_total (P := fun _ => True) (fun r hr' w _ => cc r hr' w) (fun _ _ _ _ _ _ => trivial) trivial,
        fun v1 h1 h0 => ⟨?_, fun v2 h2 => ?_⟩⟩
      · exact anyRef_total (P := fun _ => True) (fun r hr' w _ => cd h0 r (.inr (refsOf_refers (mem_run_order.1 hr'))) w)
          (fun _ _ _ _ _ _ => trivial) trivial
      · exact anyRef_total (P := fun _ => True) (fun r hr' w _ => cd h0 r (.inl (refsOf_refers (mem_run_order.1 hr'))) w)
          (fun _ _ _ _ _ _ => trivial) trivial

theorem placesAhead_le (g : Usage) (nodes : List Str) (m : Nat) (a : Str) (d : Nat) :
    placesAhead g nodes m a d ≤ (m + 1) * nodes.length := by
  classical
  unfold placesAhead
  have : ∀ (l : List Nat) (f : Nat → Nat), (∀ i, f i ≤ nodes.length) → (l.map f).sum ≤ l.length * nodes.length := by
    intro l f hf
    induction l with
    | nil => simp
    | cons i l ih =>
      have := hf i
      simp only [List.map_cons, List.sum_cons, List.length_cons, Nat.succ_mul]
      omega
  have h := this (List.range (m + 1)) (fun e => nodes.countP fun x => decide (∃ c k, CountedChain g a c k x ∧ d + c = e + k))
    fun _ => List.countP_le_length
  rw [List.length_range] at h
  exact h

/-- The analysis ends if no circle is balanced. -/
theorem fromStream_balanced (L : Locale) (f : Filter) (s : Str) (o : Order) (v : List Str) (h : NoBalanced (references L f s)) :
    ∃ n, ∀ m, n ≤ m → ∃ r, (TParser.init f).fromStream L o m s v = some r := by
  let p := ((TParser.init f).readStream L s).filterNonLabels
  let nodes := usageNodes p.usage ++ p.lines.map TLine.label
  have hn : ∀ a b, CodeRef p.usage a b ∨ DataRef p.usage a b → b ∈ nodes := fun a b h => List.mem_append_left _ (ref_nodes h).2
  refine ⟨(nodes.length + 1) * nodes.length + nodes.length + 1, fun n hn' => ?_⟩
  have ht : ∀ a ∈ nodes, ∀ v, isUsed p.usage o n a 1 v ≠ none := by
    intro a ha v
    refine isUsed_ends_balanced (g := p.usage) h hn ha ?_
    have := placesAhead_le p.usage nodes nodes.length a 1
    omega
  have := markLoop_total (nodes := nodes) p.usage ?_ ht (o.run .labels (p.labelsDefined.map (·.1))) p rfl ?_ v
  · obtain ⟨⟨q, v'⟩, hq⟩ := Option.ne_none_iff_exists'.1 this
    refine ⟨(q.removeUnused, v'), ?_⟩
    unfold TParser.fromStream TParser.markLabelUsage
    rw [hq]
  · intro e he
    refine List.mem_append_left _ ?_
    unfold usageNodes
    exact List.mem_append_right _ (List.mem_map_of_mem he)
  · intro l hl
    exact List.mem_append_right _ (List.mem_map_of_mem hl)

/-! ### Divergence -/

/-- The depth after some references, if the depth does not get below 0. -/
def descend : Nat → List (Str × Bool) → Option Nat
  | e, [] => some e
  | e, (_, true) :: r => descend (e + 1) r
  | 0, (_, false) :: _ => none
  | e + 1, (_, false) :: r => descend e r

theorem descend_append (e : Nat) (x y : List (Str × Bool)) : descend e (x ++ y) = (descend e x).bind (descend · y) := by
  induction x generalizing e with
  | nil => rfl
  | cons a x ih =>
    obtain ⟨a, k⟩ := a
    cases k with
    | true => exact ih (e + 1)
    | false =>
      cases e with
      | zero => rfl
      | succ e => exact ih e

theorem descend_shift {e f : Nat} {r : List (Str × Bool)} (h : descend e r = some f) (j : Nat) : descend (e + j) r = some (f + j) := by
  induction r generalizing e with
  | nil => simp only [descend, Option.some.injEq] at h ⊢; rw [h]
  | cons a r ih =>
    obtain ⟨a, k⟩ := a
    cases k with
    | true =>
      have : e + j + 1 = e + 1 + j := by omega
      show descend (e + j + 1) r = _
      rw [this]
      exact ih h
    | false =>
      cases e with
      | zero => exact absurd h (by simp [descend])
      | succ e =>
        have : e + 1 + j = (e + j) + 1 := by omega
        rw [this]
        exact ih h

theorem descend_count {e f : Nat} {r : List (Str × Bool)} (h : descend e r = some f) :
    f + r.countP (fun x => !x.2) = e + r.countP (fun x => x.2) := by
  induction r generalizing e with
  | nil => simp only [descend, Option.some.injEq] at h; simp [h]
  | cons a r ih =>
    obtain ⟨a, k⟩ := a
    cases k with
    | true => have := ih h; simp only [List.countP_cons, Bool.not_true, Bool.false_eq_true, if_false, if_true]; omega
    | false =>
      cases e with
      | zero => exact absurd h (by simp [descend])
      | succ e => have := ih (e := e) h; simp only [List.countP_cons, Bool.not_false, Bool.false_eq_true, if_false, if_true]; omega

/-- Every list can be split where the depth is lowest. -/
theorem descend_split (c : List (Str × Bool)) : ∃ x y m k, c = x ++ y ∧ descend m x = some 0 ∧ descend 0 y = some k := by
  induction c with
  | nil => exact ⟨[], [], 0, 0, rfl, rfl, rfl⟩
  | cons a c ih =>
    obtain ⟨x, y, m, k, rfl, h1, h2⟩ := ih
    obtain ⟨a, b⟩ := a
    cases b with
    | false => exact ⟨(a, false) :: x, y, m + 1, k, rfl, h1, h2⟩
    | true =>
      cases m with
      | succ m => exact ⟨(a, true) :: x, y, m, k, rfl, h1, h2⟩
      | zero =>
        refine ⟨[], (a, true) :: (x ++ y), 0, k + 1, rfl, rfl, ?_⟩
        show descend 1 (x ++ y) = _
        rw [descend_append, show descend 1 x = some 1 from descend_shift h1 1]
        exact descend_shift h2 1

theorem firstOf_append (x y : List (Str × Bool)) (z : Str) : firstOf (x ++ y) z = firstOf x (firstOf y z) := by
  cases x <;> rfl

theorem linked_append {R : Bool → Str → Str → Prop} (x y : List (Str × Bool)) (z : Str) :
    Linked R (x ++ y) z ↔ Linked R x (firstOf y z) ∧ Linked R y z := by
  induction x with
  | nil => simp [Linked]
  | cons a x ih =>
    obtain ⟨a, k⟩ := a
    show R k a (firstOf (x ++ y) z) ∧ Linked R (x ++ y) z ↔ (R k a (firstOf x (firstOf y z)) ∧ Linked R x (firstOf y z)) ∧ _
    rw [ih, firstOf_append, and_assoc]

/-- A balanced circle can be entered so that the depth is not below that of the first label. -/
theorem BalancedCircle.enter {R : Bool → Str → Str → Prop} {c : List (Str × Bool)} (h : BalancedCircle R c) :
    ∃ c', BalancedCircle R c' ∧ descend 0 c' = some 0 ∧ ∀ e, e ∈ c' ↔ e ∈ c := by
  obtain ⟨x, y, m, k, rfl, h1, h2⟩ := descend_split c
  refine ⟨y ++ x, ⟨?_, ?_, ?_, ?_⟩, ?_, fun e => ?_⟩
  · cases x with
    | nil => simpa using h.linked
    | cons a x =>
      cases y with
      | nil => simpa using h.linked
      | cons b y => exact (linked_append _ _ _).2 ((linked_append _ _ _).1 h.linked).symm
  · have := h.nonempty
    intro e
    rw [List.append_eq_nil_iff] at e
    exact this (by rw [e.1, e.2]; rfl)
  · have := h.different
    rw [List.map_append] at this ⊢
    exact (List.perm_append_comm.nodup_iff).1 this
  · have := h.balanced
    rw [List.countP_append, List.countP_append] at this ⊢
    omega
  · have hb := h.balanced
    rw [List.countP_append, List.countP_append] at hb
    have e1 := descend_count h1
    have e2 := descend_count h2
    have : k = m := by omega
    rw [descend_append, h2, this]
    exact h1
  · simp [or_comm]

theorem anyRef_none {q : Str → List Str → Option (Bool × List Str)} {P : List Str → Prop} {rs : List Str} {v : List Str} {b : Str}
    (hb : b ∈ rs) (hP : ∀ r ∈ rs, ∀ v v', P v → q r v = some (false, v') → P v') (ht : ∀ r ∈ rs, ∀ w v', q r w ≠ some (true, v'))
    (hn : ∀ w, P w → q b w = none) (hv : P v) : anyRef q rs v = none := by
  cases h : anyRef q rs v with
  | none => rfl
  | some x =>
    obtain ⟨k, v'⟩ := x
    cases k with
    | true =>
      obtain ⟨r, hr, w, hw⟩ := anyRef_true h
      exact absurd hw (ht r hr w v')
    | false =>
      obtain ⟨w, w', hw, e⟩ := (anyRef_false hP hv h).2 b hb
      rw [hn w hw] at e
      cases e

/-- `a` is referred to from below `b`, for a table of references. -/
def GRef (g : Usage) (fromCode : Bool) (a b : Str) : Prop := if fromCode then CodeRef g a b else DataRef g a b

/-- A walk along a balanced circle does not end. -/
theorem circle_none {g : Usage} (hkU : (g.used.map (·.1)).Nodup) (hkD : (g.dataUsed.map (·.1)).Nodup) (hw : g.weaklyUsed = [])
    {c : List (Str × Bool)} (hc : BalancedCircle (GRef g) c) (h0 : descend 0 c = some 0) (hu : ∀ e ∈ c, ¬ Reachable g e.1)
    {o : Order} {n : Nat} : ∀ (r : List (Str × Bool)) (d : Nat) (v : List Str), r ≠ [] → (∀ e ∈ r, e ∈ c) →
      Linked (GRef g) r (firstOf c []) → descend d r = some 0 → (r.map (·.1)).Nodup → (d = 0 ∨ ∀ e ∈ r, e.1 ∉ v) →
      isUsed g o n (firstOf r []) d v = none := by
  induction n with
  | zero => intros; rfl
  | succ n ih =>
    intro r d v hr hin hl hd hnd hv
    match r, hr with
    | (a, k) :: r, _ =>
    have hua : ¬ Reachable g a := hu _ (hin _ (List.mem_cons_self ..))
    have hseen : ∀ e ∈ (a, k) :: r, e.1 ∉ startVis d v := by
      intro e he hs
      rcases hv with rfl | hv
      · exact absurd hs (by simp [startVis])
      · exact hv e he (startVis_sub hs)
    rw [List.map_cons, List.nodup_cons] at hnd
    obtain ⟨hlink, hl⟩ := hl
    let P : List Str → Prop := fun w => ∀ x ∈ w, x ∈ a :: startVis d v
    have hP : ∀ d' (x : Str) (w w' : List Str), P w → isUsed g o n x d' w = some (false, w') → P w' :=
      fun d' x w w' hw hq y hy => hw y (startVis_sub (isUsed_false_sub hq y hy))
    have hPc : ∀ (x : Str) (w w' : List Str), P w → codeCall g o n d x w = some (false, w') → P w' :=
      fun x w w' hw hq => hP _ _ _ _ hw (codeCall_false hq).2
    have htc : ∀ x ∈ o.run (.used a) (refsOf g.used a), ∀ w v', codeCall g o n d x w ≠ some (true, v') := by
      intro x hx w v' hq
      have hx := refsOf_refers (mem_run_order.1 hx)
      rcases codeCall_true hq with rfl | hq
      · exact hua (.outside hx)
      · exact hua (.code hx (isUsed_sound hq))
    have htw : ∀ x ∈ o.run (.weak a) (refsOf g.weaklyUsed a), ∀ w v', isUsed g o n x (d - 1) w ≠ some (true, v') := by
      intro x hx w v' hq
      exact hua (.data (.inr (refsOf_refers (mem_run_order.1 hx))) (isUsed_sound hq))
    have htd : ∀ x ∈ o.run (.data a) (refsOf g.dataUsed a), ∀ w v', isUsed g o n x (d - 1) w ≠ some (true, v') := by
      intro x hx w v' hq
      exact hua (.data (.inl (refsOf_refers (mem_run_order.1 hx))) (isUsed_sound hq))
    -- the next label of the circle
    have next : ∀ d', descend d' r = some 0 → ∀ w, P w → isUsed g o n (firstOf r (firstOf c [])) d' w = none := by
      intro d' hd' w hPw
      match r, hd', hin, hl, hnd, hseen with
      | [], hd', _, _, _, _ =>
        simp only [descend, Option.some.injEq] at hd'
        exact ih c d' w hc.nonempty (fun _ h => h) hc.linked (by rw [hd']; exact h0) hc.different (.inl hd')
      | (b, j) :: r, hd', hin, hl, hnd, hseen =>
        refine ih ((b, j) :: r) d' w (by simp) (fun e he => hin e (List.mem_cons_of_mem _ he)) hl hd' hnd.2 (.inr fun e he hx => ?_)
        rcases List.mem_cons.1 (hPw _ hx) with e1 | e1
        · exact hnd.1 (List.mem_map.2 ⟨e, he, e1⟩)
        · exact hseen e (List.mem_cons_of_mem _ he) e1
    show isUsed g o (n + 1) a d v = none
    rw [isUsed_eq, if_neg (by simpa using hseen _ (List.mem_cons_self ..)),
      if_neg (by simpa using fun h => hua (.visible h))]
    cases k with
    | true =>
      have hb : firstOf r (firstOf c []) ∈ o.run (.used a) (refsOf g.used a) := mem_run_order.2 (refers_refsOf hkU hlink)
      have : anyRef (codeCall g o n d) (o.run (.used a) (refsOf g.used a)) (a :: startVis d v) = none := by
        refine anyRef_none (P := P) hb (fun r _ => hPc r) htc (fun w hw => ?_) (fun _ h => h)
        unfold codeCall
        rw [if_neg]
        · exact next (d + 1) hd w hw
        · intro e
          have e : firstOf r (firstOf c []) = [] := by simpa using e
          rw [e] at hlink
          exact hua (.outside hlink)
      rw [this]
    | false =>
      obtain ⟨d, rfl⟩ : ∃ m, d = m + 1 := by
        cases d with
        | zero => cases hd
        | succ m => exact ⟨m, rfl⟩
      cases h1 : anyRef (codeCall g o n (d + 1)) (o.run (.used a) (refsOf g.used a)) (a :: startVis (d + 1) v) with
      | none => rfl
      | some x =>
        obtain ⟨k, v1⟩ := x
        cases k with
        | true =>
          obtain ⟨x, hx, w, hq⟩ := anyRef_true h1
          exact absurd hq (htc x hx w v1)
        | false =>
          have p1 := (anyRef_false (P := P) (fun r _ => hPc r) (fun _ h => h) h1).1
          simp only [gt_iff_lt, Nat.zero_lt_succ, if_true]
          cases h2 : anyRef (fun r v => isUsed g o n r (d + 1 - 1) v) (o.run (.weak a) (refsOf g.weaklyUsed a)) v1 with
          | none => rfl
          | some x =>
            obtain ⟨k, v2⟩ := x
            cases k with
            | true =>
              obtain ⟨x, hx, w, hq⟩ := anyRef_true h2
              exact absurd hq (htw x hx w v2)
            | false =>
              have p2 := (anyRef_false (P := P) (fun r _ => hP _ r) p1 h2).1
              have hlink' : Refers g.dataUsed a (firstOf r (firstOf c [])) := by
                rcases (show DataRef g a _ from hlink) with h | ⟨rs, h, -⟩
                · exact h
                · rw [hw] at h; cases h
              have hb : firstOf r (firstOf c []) ∈ o.run (.data a) (refsOf g.dataUsed a) := mem_run_order.2 (refers_refsOf hkD hlink')
              have : anyRef (fun r v => isUsed g o n r (d + 1 - 1) v) (o.run (.data a) (refsOf g.dataUsed a)) v2 = none :=
                anyRef_none (P := P) hb (fun r _ => hP _ r) htd (fun w hw => next d hd w hw) p2
              simp only [this]

/-- Labels that the analysis leaves marked are in use. -/
theorem isUsed_new {g : Usage} {o : Order} {n : Nat} {a : Str} {d : Nat} {v v' : List Str} {b : Bool}
    (h : isUsed g o n a d v = some (b, v')) : ∀ x ∈ v', x ∈ v ∨ Reachable g x := by
  induction n generalizing a d v v' b with
  | zero => simp [isUsed] at h
  | succ n ih =>
    cases b with
    | false => exact fun x hx => .inl (startVis_sub (isUsed_false_sub h x hx))
    | true =>
      have ha := isUsed_sound h
      let P : List Str → Prop := fun w => ∀ x ∈ w, x ∈ v ∨ Reachable g x
      have h0 : P (a :: startVis d v) := by
        intro x hx
        rcases List.mem_cons.1 hx with rfl | hx
        · exact .inr ha
        · exact .inl (startVis_sub hx)
      have hq : ∀ d' (r : Str) (w : List Str) b w', P w → isUsed g o n r d' w = some (b, w') → P w' := by
        intro d' r w b w' hw h x hx
        rcases ih h x hx with h | h
        · exact hw x h
        · exact .inr h
      have hcc : ∀ (r : Str) (w : List Str) b w', P w → codeCall g o n d r w = some (b, w') → P w' := by
        intro r w b w' hw h
        unfold codeCall at h
        split at h
        · simp only [Option.some.injEq, Prod.mk.injEq] at h; rw [← h.2]; exact hw
        · exact hq _ _ _ _ _ hw h
      cases isUsed_call h with
      | visible _ _ => exact h0
      | code _ _ h1 => exact anyRef_inv (P := P) (fun r _ => hcc r) h0 h1
      | weak _ _ _ h1 h2 => exact anyRef_inv (P := P) (fun r _ => hq _ r) (anyRef_inv (P := P) (fun r _ => hcc r) h0 h1) h2
      | data _ _ _ h1 h2 h3 =>
        exact anyRef_inv (P := P) (fun r _ => hq _ r)
          (anyRef_inv (P := P) (fun r _ => hq _ r) (anyRef_inv (P := P) (fun r _ => hcc r) h0 h1) h2) h3

theorem markLine_new {g : Usage} {o : Order} {n : Nat} {l l' : TLine} {v v' : List Str}
    (h : markLine g o n l v = some (l', v')) : ∀ x ∈ v', x ∈ v ∨ Reachable g x := by
  let P : List Str → Prop := fun w => ∀ x ∈ w, x ∈ v ∨ Reachable g x
  have h0 : ∀ a b w w', P w → isUsed g o n a 1 w = some (b, w') → P w' := by
    intro a b w w' hw h x hx
    rcases isUsed_new h x hx with h | h
    · exact hw x h
    · exact .inr h
  have h1 : ∀ a b w w', P w → isUsedThroughAlias g o n a w = some (b, w') → P w' := by
    intro a b w w' hw h
    unfold isUsedThroughAlias at h
    split at h
    · exact h0 _ _ _ _ hw h
    · simp only [Option.some.injEq, Prod.mk.injEq] at h
      rw [← h.2]; exact hw
  have h2 : ∀ a b w w', P w → isDataUsedThroughAlias g o n a w = some (b, w') → P w' := by
    intro a b w w' hw h
    exact anyRef_inv (P := P) (fun r _ v b v' hv h => h1 _ _ _ _ hv h) hw h
  have hv : P v := fun x hx => .inl hx
  show P v'
  unfold markLine at h
  split at h
  · exact absurd h (by simp)
  · rename_i hu
    simp only [Option.some.injEq, Prod.mk.injEq] at h
    rw [← h.2]; exact h0 _ _ _ _ hv hu
  · rename_i hu
    have hv := h0 _ _ _ _ hv hu
    split at h
    · exact absurd h (by simp)
    · rename_i hu
      simp only [Option.some.injEq, Prod.mk.injEq] at h
      rw [← h.2]; exact h2 _ _ _ _ hv hu
    · rename_i hu
      have hv := h2 _ _ _ _ hv hu
      split at h
      · exact absurd h (by simp)
      · rename_i hu
        simp only [Option.some.injEq, Prod.mk.injEq] at h
        rw [← h.2]; exact h1 _ _ _ _ hv hu
      · rename_i hu
        simp only [Option.some.injEq, Prod.mk.injEq] at h
        rw [← h.2]; exact h1 _ _ _ _ hv hu

/-- The loop over the labels does not end if the analysis of one of them does not. -/
theorem markLoop_none {o : Order} {n : Nat} {X : List Str} {a : Str} (names : List Str) {p : TParser} {v : List Str}
    (ht : Points p names) (ha : a ∈ names) (hX : ∀ x ∈ X, ¬ Reachable p.usage x) (hv : ∀ x ∈ X, x ∉ v)
    (hd : ∀ v, (∀ x ∈ X, x ∉ v) → isUsed p.usage o n a 1 v = none) : p.markLoop o n names v = none := by
  induction names generalizing p v with
  | nil => exact absurd ha (by simp)
  | cons b names ih =>
    obtain ⟨l, hl, hlab, hname⟩ := ht b (List.mem_cons_self ..)
    unfold TParser.markLoop
    simp only [hl]
    split
    · rfl
    · rename_i l' w hm
      obtain ⟨s1, s2, -, -, -⟩ := markLine_same hm
      by_cases e : b = a
      · subst e
        unfold markLine at hm
        rw [hname, hd v hv] at hm
        cases hm
      · have ha : a ∈ names := (List.mem_cons.1 ha).resolve_left (Ne.symm e)
        have ht' : Points { p with lines := p.lines.set _ l' } names :=
          (show Points p names from fun x hx => ht x (List.mem_cons_of_mem _ hx)).set hl s1 s2
        refine ih (p := { p with lines := p.lines.set _ l' }) ht' ha hX (fun x hx hw => ?_) hd
        rcases markLine_new hm x hw with h | h
        · exact hv x hx h
        · exact hX x hx h

theorem references_data_keys (L : Locale) (f : Filter) (s : Str) : ((references L f s).dataUsed.map (·.1)).Nodup :=
  (usage_read L f s).tables.keysD.1

/-- The analysis does not end if there is a balanced circle of labels that are not in use. -/
theorem fromStream_circle (L : Locale) (f : Filter) (s : Str) (o : Order) (v : List Str) {c : List (Str × Bool)}
    (hc : BalancedCircle (GRef (references L f s)) c) (hu : ∀ e ∈ c, ¬ Reachable (references L f s) e.1) (hv : ∀ e ∈ c, e.1 ∉ v)
    (hdef : ∀ a b, CodeRef (references L f s) a b → b ≠ [] → b ∈ ((TParser.init f).readStream L s).labelsDefined.map (·.1)) (n : Nat) :
    (TParser.init f).fromStream L o n s v = none := by
  obtain ⟨c', hc', h0, hmem⟩ := hc.enter
  replace hu : ∀ e ∈ c', ¬ Reachable (references L f s) e.1 := fun e he => hu e ((hmem e).1 he)
  replace hv : ∀ e ∈ c', e.1 ∉ v := fun e he => hv e ((hmem e).1 he)
  clear hmem hc
  obtain ⟨a0, a1, k, r, rfl⟩ : ∃ a0 a1 k r, c' = (a0, true) :: (a1, k) :: r := by
    match c', hc'.nonempty, h0 with
    | (a0, true) :: (a1, k) :: r, _, _ => exact ⟨_, _, _, _, rfl⟩
  have hlink := hc'.linked
  obtain ⟨hlink, hl⟩ := hlink
  have hlink : CodeRef (references L f s) a0 a1 := hlink
  have hua := hu _ (List.mem_cons_self ..)
  have hne : a1 ≠ [] := by
    rintro rfl
    exact hua (.outside hlink)
  have hkey := hdef _ _ hlink hne
  have hnd := hc'.different
  rw [List.map_cons, List.nodup_cons] at hnd
  have main : ∀ v, (∀ x ∈ ((a0, true) :: (a1, k) :: r).map (·.1), x ∉ v) → isUsed (references L f s) o n a1 1 v = none := by
    intro v hv
    exact circle_none (references_keys L f s) (references_data_keys L f s) (references_weak L f s) hc' h0 hu ((a1, k) :: r) 1 v (by simp)
      (fun e he => List.mem_cons_of_mem _ he) hl h0 hnd.2 (.inr fun e he => hv _ (List.mem_map_of_mem (List.mem_cons_of_mem _ he)))
  have : ((TParser.init f).readStream L s).filterNonLabels.markLoop o n
      (o.run .labels (((TParser.init f).readStream L s).filterNonLabels.labelsDefined.map (·.1))) v = none := by
    refine markLoop_none (X := ((a0, true) :: (a1, k) :: r).map (·.1)) (a := a1) _ ?_ (mem_run_order.2 hkey) ?_ ?_ main
    · intro a ha
      exact points_read L f s a (mem_run_order.1 ha)
    · intro x hx
      obtain ⟨e, he, rfl⟩ := List.mem_map.1 hx
      exact hu e he
    · intro x hx
      obtain ⟨e, he, rfl⟩ := List.mem_map.1 hx
      exact hv e he
  unfold TParser.fromStream TParser.markLabelUsage
  rw [this]

end AsmParser
