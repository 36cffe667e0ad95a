/-
Helper lemmas: what the filter for unused labels leaves of the assembly code that a compiler writes.
-/
import Verif.Proofs.CompiledNeed
import Verif.Props.Loss
import Verif.Props.Exported

namespace AsmParser

attribute [local irreducible] Re.search Re.fullMatch

/-! ### Numbers of lines -/

theorem directive_after (u : Bool) (x : Found) (s : Spot) {l : CLine} (h : l.isDirective = true) : s.after u x l = s := by
  cases l <;> first | rfl | cases h

theorem directive_keeps (u c : Bool) (x : Found) (s : Spot) {l : CLine} (h : l.isDirective = true) : s.keeps u c x l = false := by
  cases l <;> first | rfl | cases h

theorem leftOf_directives (u c : Bool) (x : Found) (s : Spot) (xs : List CLine) :
    leftOf u c x s xs = leftOf u c x s (xs.filter fun x => !x.isDirective) := by
  induction xs generalizing s with
  | nil => rfl
  | cons l xs ih =>
    cases hd : l.isDirective with
    | true =>
      rw [List.filter_cons_of_neg (by simp [hd]), leftOf]
      simp only [directive_after u x s hd, directive_keeps u c x s hd, Bool.false_eq_true, if_false, List.nil_append]
      exact ih s
    | false =>
      rw [List.filter_cons_of_pos (by simp [hd]), leftOf, leftOf, ih]

/-- The numbers of the lines that are left. -/
def leftIdx (u c : Bool) (x : Found) : Nat → Spot → List CLine → List Nat
  | _, _, [] => []
  | n, s, l :: ls => (if (s.after u x l).keeps u c x l then [n] else []) ++ leftIdx u c x (n + 1) (s.after u x l) ls

theorem mem_leftIdx {u c : Bool} {x : Found} {xs : List CLine} {n k : Nat} {s : Spot} : k ∈ leftIdx u c x n s xs ↔
    ∃ j l, k = n + j ∧ xs[j]? = some l ∧ ((xs.take (j + 1)).foldl (Spot.after u x) s).keeps u c x l = true := by
  induction xs generalizing n s with
  | nil => simp [leftIdx]
  | cons y xs ih =>
    unfold leftIdx
    rw [List.mem_append, ih]
    constructor
    · rintro (h | ⟨j, l, rfl, h1, h2⟩)
      · split at h
        · rename_i hk
          refine ⟨0, y, by simpa using h, rfl, by simpa using hk⟩
        · cases h
      · exact ⟨j + 1, l, by omega, by simpa using h1, by simpa using h2⟩
    · rintro ⟨j, l, rfl, h1, h2⟩
      cases j with
      | zero =>
        obtain rfl : y = l := by simpa using h1
        refine .inl ?_
        rw [if_pos (by simpa using h2)]
        simp
      | succ j => exact .inr ⟨j, l, by omega, by simpa using h1, by simpa using h2⟩

theorem leftIdx_sorted (u c : Bool) (x : Found) (xs : List CLine) (n : Nat) (s : Spot) : (leftIdx u c x n s xs).Pairwise (· < ·) := by
  induction xs generalizing n s with
  | nil => exact .nil
  | cons y xs ih =>
    unfold leftIdx
    refine List.pairwise_append.2 ⟨?_, ih (n + 1) _, ?_⟩
    · split <;> simp
    · intro a ha b hb
      obtain ⟨j, l, rfl, -⟩ := mem_leftIdx.1 hb
      split at ha
      · have := List.mem_singleton.1 ha; omega
      · cases ha

theorem leftIdx_map {α : Type} (u c : Bool) (x : Found) (g : CLine → α) (row : Nat → α) (xs : List CLine) (n : Nat) (s : Spot)
    (h : ∀ j l, xs[j]? = some l → row (n + j) = g l) : (leftIdx u c x n s xs).map row = (leftOf u c x s xs).map g := by
  induction xs generalizing n s with
  | nil => rfl
  | cons y xs ih =>
    unfold leftIdx leftOf
    rw [List.map_append, List.map_append, ih (n + 1) _ fun j l hj => by rw [← h (j + 1) l (by simpa using hj)]; congr 1; omega]
    congr 1
    split
    · simp only [List.map_cons, List.map_nil]
      rw [show row n = g y from h 0 y rfl]
    · rfl

/-! ### Labels in use -/

section
variable {ys : List CLine} (hy : ∀ y ∈ ys, y.Wf)

theorem at_map {k : Nat} {t : Seen} (hk : (ys.map CLine.seen)[k]? = some t) : ∃ y, ys[k]? = some y ∧ t = y.seen ∧ y ∈ ys := by
  rw [List.getElem?_map] at hk
  cases hh : ys[k]? with
  | none => rw [hh] at hk; cases hk
  | some y => rw [hh] at hk; cases hk; exact ⟨y, rfl, rfl, List.mem_of_getElem? hh⟩

theorem map_at {k : Nat} {y : CLine} (h : ys[k]? = some y) : (ys.map CLine.seen)[k]? = some y.seen := by
  rw [List.getElem?_map, h]; rfl

include hy

theorem labelsAt_iff {k : Nat} {y : CLine} (h : ys[k]? = some y) : LabelsAt (ys.map CLine.seen) k ↔ y.isLabel = true := by
  have hw := hy y (List.mem_of_getElem? h)
  constructor
  · rintro ⟨t, a, h1, h2⟩
    rw [map_at h] at h1
    cases h1
    obtain ⟨nt, rfl⟩ := (defines_iff hw).1 h2
    rfl
  · intro hl
    cases y with
    | label a nt => exact ⟨_, a, map_at h, label_defines hw⟩
    | _ => cases hl

theorem markedAt_iff (hd : (labelNames ys).Nodup) {us : List Str} {k : Nat} {y : CLine} (h : ys[k]? = some y) :
    MarkedAt (ys.map CLine.seen) us k ↔ ∃ a nt, y = .label a nt ∧ us.contains a = true := by
  have hw := hy y (List.mem_of_getElem? h)
  constructor
  · rintro ⟨t, a, h1, h2, h3, -⟩
    rw [map_at h] at h1
    cases h1
    obtain ⟨nt, e⟩ := (defines_iff hw).1 h2
    exact ⟨a, nt, e, by simpa using h3⟩
  · rintro ⟨a, nt, rfl, h2⟩
    refine ⟨_, a, map_at h, label_defines hw, by simpa using h2, fun i u hi hu hdef => ?_⟩
    obtain ⟨z, h3, rfl, h4⟩ := at_map hu
    obtain ⟨nt', rfl⟩ := (defines_iff (hy z h4)).1 hdef
    have hp := List.pairwise_filterMap.1 hd
    obtain ⟨l1, e1⟩ := List.getElem?_eq_some_iff.1 h
    obtain ⟨l2, e2⟩ := List.getElem?_eq_some_iff.1 h3
    exact List.pairwise_iff_getElem.1 hp k i l1 l2 hi a (by rw [e1]; rfl) a (by rw [e2]; rfl) rfl

theorem needlessAt_iff (hd : (labelNames ys).Nodup) {x : Found} {k : Nat} {y : CLine} (h : ys[k]? = some y) :
    NeedlessAt (ys.map CLine.seen) x k ↔ ∃ a nt, y = .label a nt ∧ x.isUsed a = false ∧ x.isAlias a = false ∧ x.isDataAlias a = false := by
  unfold NeedlessAt
  rw [labelsAt_iff hy h, markedAt_iff hy hd h, markedAt_iff hy hd h, markedAt_iff hy hd h]
  cases y with
  | label a nt => simp [CLine.isLabel, Found.isUsed, Found.isAlias, Found.isDataAlias]
  | _ => simp [CLine.isLabel]

omit hy in
theorem internalName_iff {a : Str} : internalName a = true ↔ Internal a := by
  unfold Internal
  cases a with
  | nil => simp [internalName]
  | cons c r => simp [internalName, or_assoc]

theorem localAt_iff {k : Nat} {y : CLine} (h : ys[k]? = some y) : LocalAt (ys.map CLine.seen) k ↔ ∃ a nt, y = .label a nt ∧ internalName a = true := by
  have hw := hy y (List.mem_of_getElem? h)
  constructor
  · rintro ⟨t, h1, h2⟩
    rw [map_at h] at h1
    cases h1
    rcases h2 with h2 | ⟨a, h2, h3⟩
    · cases h2
    · obtain ⟨nt, e⟩ := (defines_iff hw).1 h2
      exact ⟨a, nt, e, internalName_iff.2 h3⟩
  · rintro ⟨a, nt, rfl, h2⟩
    exact ⟨_, map_at h, .inr ⟨a, label_defines hw, internalName_iff.1 h2⟩⟩

/-! ### The place -/

theorem positionAt_exists : PositionAt (ys.map CLine.seen) ((ys.foldl CLine.moves none).map toPos) := by
  induction ys using snoc_induction with
  | nil => exact .start
  | snoc zs x ih =>
    have ih := ih fun y h => hy y (by simp [h])
    have hx := hy x (by simp)
    rw [List.map_append, List.foldl_append]
    have keep : (∀ pos, CLine.moves pos x = pos) → x.isBlock = false → (∀ sep i n c m, x ≠ .loc sep i n c m) →
        PositionAt (zs.map CLine.seen ++ [x].map CLine.seen) (([x].foldl CLine.moves (zs.foldl CLine.moves none)).map toPos) := by
      intro h1 h2 h3
      rw [List.foldl_cons, List.foldl_nil, h1]
      refine .keep ih fun q hq => ?_
      rcases setsPos_of hx hq with ⟨h, -⟩ | ⟨sep, i, n, c, m, h, -⟩
      · rw [h2] at h; cases h
      · exact h3 _ _ _ _ _ h
    cases x with
    | block kw sep args => exact .set (.ends ((seen_ends hx).2 rfl))
    | loc sep i n c m =>
      have he : ¬ (CLine.loc sep i n c m).seen.Ends := by rw [seen_ends hx]; simp [CLine.isBlock]
      exact .set (.loc he (loc_line hx.usual) (by have := hx.usual.2.2.1; omega))
    | _ => exact keep (fun _ => rfl) rfl (fun _ _ _ _ _ h => by cases h)

end

/-- What is known about the place after `n` lines. -/
structure SpotIs (u : Bool) (ys : List CLine) (x : Found) (n : Nat) (s : Spot) : Prop where
  placed : s.placed = true ↔ ∃ q, (ys.take n).foldl CLine.moves none = some q
  idle : s.idle = true ↔ ∀ j, j < n → LabelsAt (ys.map CLine.seen) j → (∀ i, j < i → i < n → ¬ LabelsAt (ys.map CLine.seen) i) →
    NeedlessAt (ys.map CLine.seen) x j
  removing : s.removing = true ↔ u = true ∧ ∃ j, j < n ∧ NeedlessAt (ys.map CLine.seen) x j ∧ ¬ LocalAt (ys.map CLine.seen) j ∧
    ∀ i, j < i → i < n → ¬ MarkedAt (ys.map CLine.seen) x.used i

theorem spotIs {ys : List CLine} (hy : ∀ y ∈ ys, y.Wf) (hd : (labelNames ys).Nodup) (u : Bool) (x : Found) (n : Nat) (hn : n ≤ ys.length) :
    SpotIs u ys x n ((ys.take n).foldl (Spot.after u x) {}) := by
  induction n with
  | zero => exact ⟨by simp, by simp, by simp⟩
  | succ n ih =>
    obtain ⟨i1, i2, i3⟩ := ih (by omega)
    obtain ⟨y, hk⟩ : ∃ y, ys[n]? = some y := ⟨ys[n]'(by omega), List.getElem?_eq_getElem _⟩
    have ht : ys.take (n + 1) = ys.take n ++ [y] := by rw [List.take_add_one, hk]; rfl
    rw [ht, List.foldl_append, List.foldl_cons, List.foldl_nil]
    generalize (ys.take n).foldl (Spot.after u x) {} = s at *
    have hlab := labelsAt_iff hy hk
    have hneed := needlessAt_iff hy hd (x := x) hk
    have hloc := localAt_iff hy hk
    have hmark := markedAt_iff hy hd (us := x.used) hk
    -- lines that are no labels
    have other : y.isLabel = false → s.idle = (s.after u x y).idle → s.removing = (s.after u x y).removing →
        ((s.after u x y).placed = true ↔ ∃ q, (ys.take (n + 1)).foldl CLine.moves none = some q) → SpotIs u ys x (n + 1) (s.after u x y) := by
      intro h1 h2 h3 h4
      rw [h1] at hlab
      have n1 : ¬ LabelsAt (ys.map CLine.seen) n := by rw [hlab]; simp
      have n2 : ¬ NeedlessAt (ys.map CLine.seen) x n := fun h => n1 h.1
      have n3 : ¬ MarkedAt (ys.map CLine.seen) x.used n := fun ⟨t, a, g1, g2, _⟩ => n1 ⟨t, a, g1, g2⟩
      refine ⟨h4, ?_, ?_⟩
      · rw [← h2, i2]
        constructor
        · intro h j hj g1 g2
          by_cases e : j = n
          · subst e; exact (n1 g1).elim
          · exact h j (by omega) g1 fun i a b => g2 i a (by omega)
        · intro h j hj g1 g2
          refine h j (by omega) g1 fun i a b => ?_
          by_cases e : i = n
          · subst e; exact n1
          · exact g2 i a (by omega)
      · rw [← h3, i3]
        refine and_congr_right fun _ => ?_
        constructor
        · rintro ⟨j, hj, g1, g2, g3⟩
          refine ⟨j, by omega, g1, g2, fun i a b => ?_⟩
          by_cases e : i = n
          · subst e; exact n3
          · exact g3 i a (by omega)
        · rintro ⟨j, hj, g1, g2, g3⟩
          by_cases e : j = n
          · subst e; exact (n2 g1).elim
          · exact ⟨j, by omega, g1, g2, fun i a b => g3 i a (by omega)⟩
    cases y with
    | label a nt =>
      have n1 : LabelsAt (ys.map CLine.seen) n := hlab.2 rfl
      simp only [CLine.label.injEq, exists_and_right, exists_and_left, and_assoc, exists_eq_left', exists_eq', true_and] at hneed hloc hmark
      refine ⟨?_, ?_, ?_⟩
      · rw [ht, List.foldl_append]; exact i1
      · have : (s.after u x (.label a nt)).idle = true ↔ NeedlessAt (ys.map CLine.seen) x n := by
          rw [hneed]; simp [Spot.after, and_assoc]
        rw [this]
        constructor
        · intro h j hj g1 g2
          by_cases e : j = n
          · subst e; exact h
          · exact (g2 n (by omega) (by omega) n1).elim
        · intro h
          exact h n (by omega) n1 fun i a b => by omega
      · have : (s.after u x (.label a nt)).removing = true ↔ u = true ∧ x.isUsed a = false ∧ (s.removing = true ∨
            x.isAlias a = false ∧ x.isDataAlias a = false ∧ internalName a = false) := by
          simp [Spot.after, and_assoc]
        rw [this]
        refine and_congr_right fun hu => ?_
        constructor
        · rintro ⟨g1, g2 | ⟨g2, g3, g4⟩⟩
          · obtain ⟨-, j, hj, k1, k2, k3⟩ := i3.1 g2
            refine ⟨j, by omega, k1, k2, fun i a b => ?_⟩
            by_cases e : i = n
            · subst e
              rw [hmark]
              show ¬ x.isUsed _ = true
              rw [g1]; simp
            · exact k3 i a (by omega)
          · exact ⟨n, by omega, hneed.2 ⟨g1, g2, g3⟩, by rw [hloc, g4]; simp, fun i a b => by omega⟩
        · rintro ⟨j, hj, k1, k2, k3⟩
          by_cases e : j = n
          · subst e
            rw [hneed] at k1
            rw [hloc] at k2
            exact ⟨k1.1, .inr ⟨k1.2.1, k1.2.2, by simpa using k2⟩⟩
          · refine ⟨?_, .inl (i3.2 ⟨hu, j, by omega, k1, k2, fun i a b => k3 i a (by omega)⟩)⟩
            have := k3 n (by omega) (by omega)
            rw [hmark] at this
            exact Bool.eq_false_iff.2 this
    | loc sep i m c =>
      refine other rfl rfl rfl ?_
      rw [ht, List.foldl_append]
      simp [Spot.after, CLine.moves]
    | block kw sep args =>
      refine other rfl rfl rfl ?_
      rw [ht, List.foldl_append]
      simp [Spot.after, CLine.moves]
    | _ =>
      refine other rfl rfl rfl ?_
      rw [ht, List.foldl_append]
      exact i1

/-! ### What is kept -/

theorem keeps_iff {f : Filter} (hdir : f.directives = true) {ys : List CLine} (hy : ∀ y ∈ ys, y.Wf) (hd : (labelNames ys).Nodup)
    (hc : DataWithoutLabels f (ys.map CLine.seen)) {x : Found} {k : Nat} {y : CLine} (hk : ys[k]? = some y) (hs : y.shows = true) :
    ((ys.take (k + 1)).foldl (Spot.after f.unusedLabels x) {}).keeps f.unusedLabels f.compatmode x y = true ↔
      ¬ RemovedAt f (ys.map CLine.seen) x k := by
  obtain ⟨hlen, -⟩ := List.getElem?_eq_some_iff.1 hk
  obtain ⟨i1, i2, i3⟩ := spotIs hy hd f.unusedLabels x (k + 1) hlen
  generalize (ys.take (k + 1)).foldl (Spot.after f.unusedLabels x) {} = s at *
  have hw := hy y (List.mem_of_getElem? hk)
  have hneed := needlessAt_iff hy hd (x := x) hk
  have hloc := localAt_iff hy hk
  have hmark := markedAt_iff hy hd (us := x.used) hk
  have halias := markedAt_iff hy hd (us := x.aliases) hk
  have hrem : f.unusedLabels = true → (s.removing = true ↔ InNeedless (ys.map CLine.seen) x k) := by
    intro hu
    rw [i3]
    unfold InNeedless
    constructor
    · rintro ⟨-, j, a, b, c, d⟩
      exact ⟨j, by omega, b, c, fun i g1 g2 => d i g1 (by omega)⟩
    · rintro ⟨j, a, b, c, d⟩
      exact ⟨hu, j, by omega, b, c, fun i g1 g2 => d i g1 (by omega)⟩
  have hrem0 : f.unusedLabels = false → s.removing = false := by
    intro hu
    rw [← Bool.not_eq_true, i3, hu]
    simp
  have hloose : y.isData = false → ¬ (f.compatmode = true ∧ f.directives = true ∧ LooseAt (ys.map CLine.seen) x k) := by
    rintro hn ⟨g1, g2, ⟨t, h1, h2, h3⟩, -⟩
    rw [map_at hk] at h1
    cases h1
    have := hc g1 g2 y.seen (List.mem_map_of_mem (List.mem_of_getElem? hk)) h3
    have hsk : y.seen.skipped = false := by cases y <;> first | rfl | cases hs
    have := (data_seen hw).1 ⟨⟨hsk, this⟩, h2, h3⟩
    rw [hn] at this
    cases this
  have code : y.isLabel = false → y.isData = false → (s.removing = false ↔ ¬ RemovedAt f (ys.map CLine.seen) x k) := by
    intro hl hn
    have n1 : ¬ RemovedAlone (ys.map CLine.seen) x k := by
      rintro (⟨h, -⟩ | ⟨-, h⟩)
      · obtain ⟨a, nt, rfl, -⟩ := hneed.1 h; cases hl
      · obtain ⟨a, nt, rfl, -⟩ := halias.1 h; cases hl
    have n2 := hloose hn
    unfold RemovedAt
    cases hu : f.unusedLabels with
    | false => simp [hrem0 hu, n2]
    | true =>
      have := hrem hu
      simp only [true_and, n1, or_false, n2, ← this]
      simp
  cases y with
  | label a nt =>
    have n2 := hloose rfl
    simp only [CLine.label.injEq, exists_and_right, exists_and_left, and_assoc, exists_eq_left', exists_eq', true_and] at hneed hloc hmark halias
    unfold RemovedAt RemovedAlone
    cases hu : f.unusedLabels with
    | false => simp [Spot.keeps, n2]
    | true =>
      have hr := hrem hu
      rw [hneed, hloc, hmark, halias, ← hr]
      simp only [true_and, n2, or_false]
      have hself : x.isUsed a = false → x.isAlias a = false → x.isDataAlias a = false → internalName a = false → s.removing = true := by
        intro a1 a2 a3 a4
        rw [hr]
        refine ⟨k, Nat.le_refl _, hneed.2 ⟨a1, a2, a3⟩, ?_, fun i g1 g2 => by omega⟩
        rw [hloc, a4]; simp
      have hused : x.isUsed a = true → s.removing = false := by
        intro hu
        rw [← Bool.not_eq_true, hr]
        rintro ⟨j, g1, g2, g3, g4⟩
        by_cases e : j = k
        · subst e
          rw [(hneed.1 g2).1] at hu
          cases hu
        · exact g4 k (by omega) (Nat.le_refl _) (hmark.2 hu)
      change _ ↔ ¬ (s.removing = true ∨ _ ∨ ¬ (x.isUsed a = true) ∧ x.isAlias a = true)
      simp only [Spot.keeps]
      revert hself hused
      cases x.isUsed a <;> cases x.isAlias a <;> cases x.isDataAlias a <;> cases internalName a <;> cases s.removing <;> simp
  | instr op sep args => simpa [Spot.keeps] using code rfl rfl
  | data kw sep args =>
    have n1 : ¬ RemovedAlone (ys.map CLine.seen) x k := by
      rintro (⟨h, -⟩ | ⟨-, h⟩)
      · obtain ⟨a, nt, h, -⟩ := hneed.1 h; cases h
      · obtain ⟨a, nt, h, -⟩ := halias.1 h; cases h
    have n2 : LooseAt (ys.map CLine.seen) x k ↔ s.idle = true ∧ s.placed = false := by
      have hdat := (data_seen hw).2 rfl
      have hpos : (∃ i n c, PositionAt ((ys.map CLine.seen).take (k + 1)) (some (.indexed i n c))) ↔ s.placed = true := by
        rw [i1, ← List.map_take]
        have hyt : ∀ y ∈ ys.take (k + 1), y.Wf := fun y h => hy y (List.take_subset _ _ h)
        constructor
        · rintro ⟨i, n, c, h⟩
          have := positionAt_of h _ rfl hyt
          cases hq : (ys.take (k + 1)).foldl CLine.moves none with
          | none => rw [hq] at this; cases this
          | some q => exact ⟨q, rfl⟩
        · rintro ⟨q, hq⟩
          have := positionAt_exists hyt
          rw [hq] at this
          exact ⟨_, _, _, this⟩
      unfold LooseAt
      rw [hpos, i2]
      constructor
      · rintro ⟨-, g1, g2⟩
        exact ⟨fun j hj a b => g2 j (by omega) a fun i c d => b i c (by omega), by simpa using g1⟩
      · rintro ⟨g1, g2⟩
        exact ⟨⟨_, map_at hk, hdat.2.1, hdat.2.2⟩, by rw [g2]; simp, fun j hj a b => g1 j (by omega) a fun i c d => b i c (by omega)⟩
    unfold RemovedAt
    rw [n2]
    simp only [n1, or_false, hdir, true_and, Spot.keeps]
    cases hu : f.unusedLabels with
    | false => simp [hrem0 hu]; cases f.compatmode <;> cases s.idle <;> cases s.placed <;> simp
    | true =>
      rw [← hrem hu]
      cases s.removing <;> cases f.compatmode <;> cases s.idle <;> cases s.placed <;> simp
  | _ => cases hs

/-- Lines that are not shown are not kept. -/
theorem keeps_shows {u c : Bool} {x : Found} {s : Spot} {y : CLine} (h : s.keeps u c x y = true) : y.shows = true := by
  cases y <;> first | rfl | cases h

end AsmParser
