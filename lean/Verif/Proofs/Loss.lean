import Verif.Proofs.Sides
import Verif.Proofs.Chains
import Verif.Spec.Loss

/-! The lines of the result in terms of the input, for C80. -/

namespace AsmParser

attribute [local irreducible] Re.search Re.fullMatch

/-! ### Lists -/

/-- Two increasing lists of numbers with the same members are equal. -/
theorem increasing_unique {x y : List Nat} (hx : x.Pairwise (· < ·)) (hy : y.Pairwise (· < ·)) (h : ∀ k, k ∈ x ↔ k ∈ y) : x = y := by
  induction x generalizing y with
  | nil =>
    cases y with
    | nil => rfl
    | cons b y => exact absurd ((h b).2 List.mem_cons_self) (by simp)
  | cons a x ih =>
    cases y with
    | nil => exact absurd ((h a).1 List.mem_cons_self) (by simp)
    | cons b y =>
      rw [List.pairwise_cons] at hx hy
      have hab : a = b := by
        rcases List.mem_cons.1 ((h a).1 List.mem_cons_self) with e | e
        · exact e
        · rcases List.mem_cons.1 ((h b).2 List.mem_cons_self) with e' | e'
          · exact e'.symm
          · have := hx.1 b e'
            have := hy.1 a e
            omega
      subst hab
      refine congrArg _ (ih hx.2 hy.2 fun k => ?_)
      have := h k
      simp only [List.mem_cons] at this
      constructor
      · intro hk
        rcases this.1 (.inr hk) with e | e
        · have := hx.1 k hk; omega
        · exact e
      · intro hk
        rcases this.2 (.inr hk) with e | e
        · have := hy.1 k hk; omega
        · exact e

theorem exists_split_cons {α : Type} {x : α} {xs : List α} {P Q : α → Prop} :
    (∃ a l b, x :: xs = a ++ l :: b ∧ P l ∧ ∀ y ∈ b, Q y) ↔ (P x ∧ ∀ y ∈ xs, Q y) ∨ ∃ a l b, xs = a ++ l :: b ∧ P l ∧ ∀ y ∈ b, Q y := by
  constructor
  · rintro ⟨a, l, b, e, h1, h2⟩
    cases a with
    | nil => cases e; exact .inl ⟨h1, h2⟩
    | cons z a => cases e; exact .inr ⟨a, l, b, rfl, h1, h2⟩
  · rintro (⟨h1, h2⟩ | ⟨a, l, b, rfl, h1, h2⟩)
    · exact ⟨[], x, xs, rfl, h1, h2⟩
    · exact ⟨x :: a, l, b, rfl, h1, h2⟩

/-- A line such that all later ones …, in terms of the numbers. -/
theorem exists_split_numbered {xs : List TLine} {ws : List (TLine × Nat)} {P Q : TLine → Prop}
    (hm : ws.map (·.1) = xs.filter fun l => l.text ≠ []) (hp : ws.Pairwise fun a b => a.2 < b.2)
    (h1 : ∀ l, l ∈ xs → P l → l.text ≠ []) (h2 : ∀ l, l ∈ xs → ¬ Q l → l.text ≠ []) :
    (∃ a l b, xs = a ++ l :: b ∧ P l ∧ ∀ y ∈ b, Q y) ↔ ∃ w ∈ ws, P w.1 ∧ ∀ w' ∈ ws, w.2 < w'.2 → Q w'.1 := by
  induction xs generalizing ws with
  | nil =>
    have : ws = [] := by simpa using hm
    subst this
    simp
  | cons x xs ih =>
    rw [exists_split_cons]
    have h1' : ∀ l, l ∈ xs → P l → l.text ≠ [] := fun l hl => h1 l (List.mem_cons_of_mem _ hl)
    have h2' : ∀ l, l ∈ xs → ¬ Q l → l.text ≠ [] := fun l hl => h2 l (List.mem_cons_of_mem _ hl)
    by_cases hx : x.text = []
    · rw [List.filter_cons_of_neg (by simp [hx])] at hm
      rw [← ih hm hp h1' h2']
      constructor
      · rintro (⟨g, -⟩ | g)
        · exact (h1 x List.mem_cons_self g hx).elim
        · exact g
      · exact .inr
    · rw [List.filter_cons_of_pos (by simp [hx])] at hm
      cases ws with
      | nil => simp at hm
      | cons w ws =>
        simp only [List.map_cons, List.cons.injEq] at hm
        obtain ⟨rfl, hm⟩ := hm
        rw [List.pairwise_cons] at hp
        rw [ih hm hp.2 h1' h2']
        have hq : (∀ y ∈ xs, Q y) ↔ ∀ w' ∈ ws, Q w'.1 := by
          constructor
          · intro g w' hw'
            have : w'.1 ∈ ws.map (·.1) := List.mem_map_of_mem hw'
            rw [hm] at this
            exact g _ (List.mem_filter.1 this).1
          · intro g y hy
            apply Classical.byContradiction
            intro hn
            have : y ∈ ws.map (·.1) := by rw [hm]; exact List.mem_filter.2 ⟨hy, by simpa using h2' y hy hn⟩
            obtain ⟨w', hw', rfl⟩ := List.mem_map.1 this
            exact hn (g w' hw')
        rw [hq]
        constructor
        · rintro (⟨g1, g2⟩ | ⟨w', hw', g1, g2⟩)
          · refine ⟨w, List.mem_cons_self, g1, fun w' hw' hlt => ?_⟩
            rcases List.mem_cons.1 hw' with rfl | hw'
            · omega
            · exact g2 w' hw'
          · refine ⟨w', List.mem_cons_of_mem _ hw', g1, fun w'' hw'' hlt => ?_⟩
            rcases List.mem_cons.1 hw'' with rfl | hw''
            · have := hp.1 w' hw'; omega
            · exact g2 w'' hw'' hlt
        · rintro ⟨w', hw', g1, g2⟩
          rcases List.mem_cons.1 hw' with rfl | hw'
          · exact .inl ⟨g1, fun w'' hw'' => g2 w'' (List.mem_cons_of_mem _ hw'') (hp.1 w'' hw'')⟩
          · exact .inr ⟨w', hw', g1, fun w'' hw'' => g2 w'' (List.mem_cons_of_mem _ hw'')⟩

/-- What remains, in terms of the numbers. -/
theorem remaining_numbered {drop : List TLine → TLine → Bool} {D : Nat → Prop} (d : Nat → Bool) (hd : ∀ k, d k = true ↔ ¬ D k)
    (ms pre : List TLine) (zl : List (TLine × Nat)) (hm : zl.map (·.1) = ms.filter fun l => l.text ≠ [])
    (h : ∀ za z zb x y, zl = za ++ z :: zb → ms = x ++ z.1 :: y → za.map (·.1) = x.filter (fun l => l.text ≠ []) →
      zb.map (·.1) = y.filter (fun l => l.text ≠ []) → (drop (pre ++ x) z.1 = true ↔ D z.2)) :
    (remaining drop pre ms).filter (fun l => l.text ≠ []) = (zl.filter fun z => d z.2).map (·.1) := by
  induction ms generalizing pre zl with
  | nil =>
    have : zl = [] := by simpa using hm
    subst this
    rfl
  | cons l ms ih =>
    by_cases hl : l.text = []
    · rw [List.filter_cons_of_neg (by simp [hl])] at hm
      have := ih (pre ++ [l]) zl hm fun za z zb x y e1 e2 e3 e4 => by
        rw [show pre ++ [l] ++ x = pre ++ (l :: x) by simp]
        exact h za z zb (l :: x) y e1 (by rw [e2]; rfl) (by rw [e3, List.filter_cons_of_neg (by simp [hl])]) e4
      unfold remaining
      split
      · exact this
      · rw [List.filter_cons_of_neg (by simp [hl])]; exact this
    · rw [List.filter_cons_of_pos (by simp [hl])] at hm
      cases zl with
      | nil => simp at hm
      | cons z zl =>
        simp only [List.map_cons, List.cons.injEq] at hm
        obtain ⟨rfl, hm⟩ := hm
        have h0 := h [] z zl [] ms rfl rfl rfl hm
        rw [List.append_nil] at h0
        have := ih (pre ++ [z.1]) zl hm fun za z' zb x y e1 e2 e3 e4 => by
          rw [show pre ++ [z.1] ++ x = pre ++ (z.1 :: x) by simp]
          exact h (z :: za) z' zb (z.1 :: x) y (by rw [e1]; rfl) (by rw [e2]; rfl)
            (by rw [List.map_cons, e3, List.filter_cons_of_pos (by simp [hl])]) e4
        unfold remaining
        split
        · rename_i hdrop
          rw [List.filter_cons_of_neg (by rw [hd]; exact fun hc => hc (h0.1 hdrop)), this]
        · rename_i hdrop
          rw [List.filter_cons_of_pos (by simp [hl]), List.filter_cons_of_pos (by rw [hd]; exact fun hc => hdrop (h0.2 hc)), this]
          rfl

/-- A line that defines a label is kept. -/
theorem Seen.Defines.kept {t : Seen} {a : Str} (h : t.Defines a) (f : Filter) : t.Kept f := by
  obtain ⟨h1, h2, h3⟩ := h
  refine ⟨h1, ?_⟩
  rcases h3 with (h3 | h3) | h3
  · exact .inr (.inr (.inr ⟨fun hp => hp.2.1 a (.inl h3), fun hi => (h2 hi).elim⟩))
  · exact .inr (.inl ⟨h2, h3.1⟩)
  · exact .inr (.inr (.inr ⟨fun hp => hp.2.1 a (h3.elim (fun g => .inr (.inl g)) fun g => .inr (.inr (.inl g))), fun hi => (h2 hi).elim⟩))

/-! ### The numbered lines -/

theorem split_numbered {zl za zb : List (TLine × Nat)} {z : TLine × Nat} {ms : List TLine}
    (hm : zl.map (·.1) = ms.filter fun l => l.text ≠ []) (e : zl = za ++ z :: zb) :
    ∃ x y, ms = x ++ z.1 :: y ∧ za.map (·.1) = x.filter (fun l => l.text ≠ []) ∧ zb.map (·.1) = y.filter fun l => l.text ≠ [] := by
  subst e
  rw [List.map_append, List.map_cons] at hm
  obtain ⟨x1, r, rfl, e1, e2⟩ := List.filter_eq_append_iff.1 hm.symm
  obtain ⟨x2, y, rfl, h1, -, e3⟩ := List.filter_eq_cons_iff.1 e2
  refine ⟨x1 ++ x2, y, by simp, ?_, e3.symm⟩
  rw [List.filter_append, e1, List.filter_eq_nil_iff.2 h1, List.append_nil]

/-- What is known about the numbered lines. -/
structure Numbers (f : Filter) (ts : List Seen) (x : Found) (ms : List TLine) (zl : List (TLine × Nat)) : Prop where
  map : zl.map (·.1) = ms.filter fun l => l.text ≠ []
  pair : zl.Pairwise fun a b => a.2 < b.2
  all : ∀ k, (∃ z ∈ zl, z.2 = k) ↔ ∃ t, ts[k]? = some t ∧ t.Kept f
  blank : ∀ l ∈ ms, l.text = [] → l.isLabel = false
  label : ∀ z ∈ zl, ∃ t, ts[z.2]? = some t ∧ (z.1.isLabel = true ∧ t.Defines z.1.label ∨ z.1.isLabel = false ∧ ∀ a, ¬ t.Defines a) ∧
    (z.1.isInternalLabel = true ↔ z.1.isLabel = true ∧ Internal z.1.label) ∧ z.1.isInlineAsm = t.inline ∧
    (z.1.isData = true ↔ ¬ t.Info ∧ StartsWithOneOf dataDirectives t.text)
  side : f.compatmode = true → f.directives = true → ∀ z ∈ zl, z.1.isData = true → (z.1.source.insideProc = true ↔ IndexedAt ts z.2)
  mark : ∀ a l b, ms = a ++ l :: b → (l.isUsed = true ↔ MarkedIn x.used l b) ∧ (l.isUsedThroughAlias = true ↔ MarkedIn x.aliases l b) ∧
    (l.isUsedDataThroughAlias = true ↔ MarkedIn x.dataAliases l b)

namespace Numbers

variable {f : Filter} {ts : List Seen} {x : Found} {ms : List TLine} {zl : List (TLine × Nat)}

theorem label_some (h : Numbers f ts x ms zl) {k : Nat} {t : Seen} {a : Str} (ht : ts[k]? = some t) (hd : t.Defines a) :
    ∃ z ∈ zl, z.2 = k ∧ z.1.isLabel = true ∧ z.1.label = a := by
  obtain ⟨z, hz, rfl⟩ := (h.all k).2 ⟨t, ht, hd.kept f⟩
  obtain ⟨t', ht', hl, -⟩ := h.label z hz
  rw [ht] at ht'
  cases ht'
  rcases hl with ⟨h1, h2⟩ | ⟨-, h2⟩
  · exact ⟨z, hz, rfl, h1, h2.unique hd⟩
  · exact (h2 a hd).elim

theorem labels (h : Numbers f ts x ms zl) {z : TLine × Nat} (hz : z ∈ zl) : z.1.isLabel = true ↔ LabelsAt ts z.2 := by
  obtain ⟨t, ht, hl, -⟩ := h.label z hz
  constructor
  · intro g
    rcases hl with ⟨-, h2⟩ | ⟨h1, -⟩
    · exact ⟨t, _, ht, h2⟩
    · rw [g] at h1; cases h1
  · rintro ⟨t', a, ht', hd⟩
    rw [ht] at ht'
    cases ht'
    rcases hl with ⟨h1, -⟩ | ⟨-, h2⟩
    · exact h1
    · exact (h2 a hd).elim

theorem marked (h : Numbers f ts x ms zl) {za zb : List (TLine × Nat)} {z : TLine × Nat} {a b : List TLine} (e : zl = za ++ z :: zb)
    (em : ms = a ++ z.1 :: b) (eb : zb.map (·.1) = b.filter fun l => l.text ≠ []) (us : List Str) :
    MarkedIn us z.1 b ↔ MarkedAt ts us z.2 := by
  have hz : z ∈ zl := by rw [e]; simp
  have hp := h.pair
  rw [e, List.pairwise_append, List.pairwise_cons] at hp
  obtain ⟨-, ⟨hp, -⟩, hp'⟩ := hp
  obtain ⟨t, ht, hl, -⟩ := h.label z hz
  constructor
  · rintro ⟨h1, h2, h3⟩
    rcases hl with ⟨-, hd⟩ | ⟨h0, -⟩
    · refine ⟨t, _, ht, hd, h2, fun i u hi hu hdu => ?_⟩
      obtain ⟨w, hw, rfl, w1, w2⟩ := h.label_some hu hdu
      rw [e, List.mem_append, List.mem_cons] at hw
      rcases hw with hw | rfl | hw
      · have := hp' w hw z (by simp); omega
      · omega
      · have : w.1 ∈ zb.map (·.1) := List.mem_map_of_mem hw
        rw [eb] at this
        exact h3 w.1 (List.mem_filter.1 this).1 w1 w2
    · rw [h1] at h0; cases h0
  · rintro ⟨t', a', ht', hd, h2, h3⟩
    rw [ht] at ht'
    cases ht'
    rcases hl with ⟨h1, hd'⟩ | ⟨-, hn⟩
    · have := hd.unique hd'
      subst this
      refine ⟨h1, h2, fun w hw w1 w2 => ?_⟩
      have hne : w.text ≠ [] := by
        intro e0
        have := h.blank w (by rw [em]; simp [hw]) e0
        rw [w1] at this; cases this
      have : w ∈ zb.map (·.1) := by rw [eb]; exact List.mem_filter.2 ⟨hw, by simpa using hne⟩
      obtain ⟨y, hy, rfl⟩ := List.mem_map.1 this
      obtain ⟨u, hu, hlu, -⟩ := h.label y (by rw [e]; simp [hy])
      rcases hlu with ⟨-, hdu⟩ | ⟨h0, -⟩
      · exact h3 y.2 u (hp y hy) hu (w2 ▸ hdu)
      · rw [w1] at h0; cases h0
    · exact (hn _ hd).elim

theorem flags (h : Numbers f ts x ms zl) {z : TLine × Nat} (hz : z ∈ zl) : (z.1.isUsed = true ↔ MarkedAt ts x.used z.2) ∧
    (z.1.isUsedThroughAlias = true ↔ MarkedAt ts x.aliases z.2) ∧ (z.1.isUsedDataThroughAlias = true ↔ MarkedAt ts x.dataAliases z.2) := by
  obtain ⟨za, zb, e⟩ := List.append_of_mem hz
  obtain ⟨a, b, e1, -, e3⟩ := split_numbered h.map e
  obtain ⟨h1, h2, h3⟩ := h.mark a z.1 b e1
  exact ⟨h1.trans (h.marked e e1 e3 _), h2.trans (h.marked e e1 e3 _), h3.trans (h.marked e e1 e3 _)⟩

theorem unused (h : Numbers f ts x ms zl) {z : TLine × Nat} (hz : z ∈ zl) : z.1.Unused ↔ NeedlessAt ts x z.2 := by
  obtain ⟨h1, h2, h3⟩ := h.flags hz
  unfold TLine.Unused NeedlessAt
  rw [h.labels hz, ← h1, ← h2, ← h3]
  simp

theorem local_iff (h : Numbers f ts x ms zl) {z : TLine × Nat} (hz : z ∈ zl) (hl : z.1.isLabel = true) :
    LocalAt ts z.2 ↔ z.1.isInternalLabel = true ∨ z.1.isInlineAsm = true := by
  obtain ⟨t, ht, h1, h2, h3, -⟩ := h.label z hz
  rcases h1 with ⟨-, hd⟩ | ⟨h0, -⟩
  · rw [h2, h3]
    constructor
    · rintro ⟨t', ht', g⟩
      rw [ht] at ht'
      cases ht'
      rcases g with g | ⟨a, g1, g2⟩
      · exact .inr g
      · exact .inl ⟨hl, g1.unique hd ▸ g2⟩
    · rintro (⟨-, g⟩ | g)
      · exact ⟨t, ht, .inr ⟨_, hd, g⟩⟩
      · exact ⟨t, ht, .inl g⟩
  · rw [hl] at h0; cases h0

theorem starts (h : Numbers f ts x ms zl) {z : TLine × Nat} (hz : z ∈ zl) : z.1.StartsRemoval ↔ NeedlessAt ts x z.2 ∧ ¬ LocalAt ts z.2 := by
  unfold TLine.StartsRemoval
  rw [h.unused hz]
  refine and_congr_right fun g => ?_
  rw [h.local_iff hz ((h.labels hz).2 g.1)]
  simp

theorem alone (h : Numbers f ts x ms zl) {z : TLine × Nat} (hz : z ∈ zl) : z.1.RemovedAlone ↔ RemovedAlone ts x z.2 := by
  unfold TLine.RemovedAlone RemovedAlone
  obtain ⟨h1, h2, -⟩ := h.flags hz
  rw [h.unused hz, ← h1, ← h2]
  refine or_congr (and_congr_right fun g => (h.local_iff hz ((h.labels hz).2 g.1)).symm) ?_
  constructor
  · rintro ⟨-, g1, g2⟩
    exact ⟨by simp [g1], g2⟩
  · rintro ⟨g1, g2⟩
    obtain ⟨t, a, i1, i2, -⟩ := h2.1 g2
    exact ⟨(h.labels hz).2 ⟨t, a, i1, i2⟩, by simpa using g1, g2⟩

/-- The lines up to one of them. -/
theorem upto (h : Numbers f ts x ms zl) {za zb : List (TLine × Nat)} {z : TLine × Nat} (e : zl = za ++ z :: zb) (w : TLine × Nat) :
    w ∈ za ++ [z] ↔ w ∈ zl ∧ w.2 ≤ z.2 := by
  have hp := h.pair
  rw [e, List.pairwise_append, List.pairwise_cons] at hp
  obtain ⟨-, ⟨hp, -⟩, hp'⟩ := hp
  rw [e]
  simp only [List.mem_append, List.mem_cons, List.not_mem_nil, or_false]
  constructor
  · rintro (hw | rfl)
    · exact ⟨.inl hw, Nat.le_of_lt (hp' w hw z (by simp))⟩
    · exact ⟨.inr (.inl rfl), Nat.le_refl _⟩
  · rintro ⟨hw | rfl | hw, hle⟩
    · exact .inl hw
    · exact .inr rfl
    · have := hp w hw; omega

theorem removed (h : Numbers f ts x ms zl) {za zb : List (TLine × Nat)} {z : TLine × Nat} {a b : List TLine} (e : zl = za ++ z :: zb)
    (em : ms = a ++ z.1 :: b) (ea : za.map (·.1) = a.filter fun l => l.text ≠ []) :
    Removed f a z.1 ↔ RemovedAt f ts x z.2 := by
  have hz : z ∈ zl := by rw [e]; simp
  have hne : z.1.text ≠ [] := by
    have : z.1 ∈ zl.map (·.1) := List.mem_map_of_mem hz
    rw [h.map] at this
    simpa using (List.mem_filter.1 this).2
  have hm : (za ++ [z]).map (·.1) = (a ++ [z.1]).filter fun l => l.text ≠ [] := by
    rw [List.map_append, List.filter_append, ea, List.filter_cons_of_pos (by simpa using hne)]; rfl
  have hp : (za ++ [z]).Pairwise fun a b => a.2 < b.2 := by
    refine h.pair.sublist ?_
    rw [e]
    exact List.Sublist.append_left (List.cons_sublist_cons.2 (List.nil_sublist _)) _
  have hup := h.upto e
  have hblank : ∀ l ∈ a ++ [z.1], l.isLabel = true → l.text ≠ [] := by
    intro l hl g e0
    have : l ∈ ms := by
      rw [em]
      rcases List.mem_append.1 hl with hl | hl
      · simp [hl]
      · rw [List.mem_singleton] at hl; simp [hl]
    rw [h.blank l this e0] at g
    cases g
  have h1 : InUnused (a ++ [z.1]) ↔ InNeedless ts x z.2 := by
    unfold InUnused
    rw [exists_split_numbered (Q := fun l => l.isLabel = true → l.isUsed = false) hm hp (fun l hl g => hblank l hl g.1.1)
      (fun l hl g => hblank l hl (Classical.byContradiction fun hc => g fun hc' => (hc hc').elim))]
    constructor
    · rintro ⟨w, hw, g1, g2⟩
      obtain ⟨hw, hle⟩ := (hup w).1 hw
      obtain ⟨i1, i2⟩ := (h.starts hw).1 g1
      refine ⟨w.2, hle, i1, i2, fun i hi hi' hmk => ?_⟩
      have ⟨t, c, ht, hd, _⟩ := hmk
      obtain ⟨w', hw', rfl, j1, -⟩ := h.label_some ht hd
      have := g2 w' ((hup w').2 ⟨hw', hi'⟩) hi j1
      rw [(h.flags hw').1.2 hmk] at this
      cases this
    · rintro ⟨j, hj, ⟨⟨t, c, ht, hd⟩, hn⟩, hnl, g⟩
      obtain ⟨w, hw, rfl, j1, -⟩ := h.label_some ht hd
      refine ⟨w, (hup w).2 ⟨hw, hj⟩, (h.starts hw).2 ⟨⟨⟨t, c, ht, hd⟩, hn⟩, hnl⟩, fun w' hw' hlt hl' => ?_⟩
      obtain ⟨hw', hle'⟩ := (hup w').1 hw'
      have := g w'.2 hlt hle'
      rw [← (h.flags hw').1] at this
      simpa using this
  have h2 : f.compatmode = true → f.directives = true → (LooseData (a ++ [z.1]) ↔ LooseAt ts x z.2) := by
    intro hc hdir
    obtain ⟨t, ht, -, -, -, hdata⟩ := h.label z hz
    have first : (∃ a' l, a ++ [z.1] = a' ++ [l] ∧ l.isData = true ∧ l.source.insideProc = false) ↔
        z.1.isData = true ∧ z.1.source.insideProc = false := by
      constructor
      · rintro ⟨a', l, e, h⟩
        have := List.append_inj' e rfl
        simp only [List.cons.injEq, and_true] at this
        exact this.2 ▸ h
      · intro h; exact ⟨_, _, rfl, h⟩
    have second : (∀ a' l b, a ++ [z.1] = a' ++ l :: b → l.isLabel = true → (∀ y ∈ b, y.isLabel = false) → l.Unused) ↔
        ∀ j, j ≤ z.2 → LabelsAt ts j → (∀ i, j < i → i ≤ z.2 → ¬ LabelsAt ts i) → NeedlessAt ts x j := by
      have hneg : (¬ ∀ a' l b, a ++ [z.1] = a' ++ l :: b → l.isLabel = true → (∀ y ∈ b, y.isLabel = false) → l.Unused) ↔
          ∃ a' l b, a ++ [z.1] = a' ++ l :: b ∧ (l.isLabel = true ∧ ¬ l.Unused) ∧ ∀ y ∈ b, y.isLabel = false := by
        constructor
        · intro hn
          apply Classical.byContradiction
          intro hc
          exact hn fun a' l b e1 e2 e3 => Classical.byContradiction fun e4 => hc ⟨a', l, b, e1, ⟨e2, e4⟩, e3⟩
        · rintro ⟨a', l, b, e1, ⟨e2, e4⟩, e3⟩ hn
          exact e4 (hn a' l b e1 e2 e3)
      rw [exists_split_numbered (P := fun l => l.isLabel = true ∧ ¬ l.Unused) (Q := fun l => l.isLabel = false) hm hp
        (fun l hl g => hblank l hl g.1) (fun l hl g => hblank l hl (by simpa using g))] at hneg
      constructor
      · intro hall j hj ⟨t', c, ht', hd⟩ hno
        apply Classical.byContradiction
        intro hnn
        refine hneg.2 ?_ hall
        obtain ⟨w, hw, rfl, j1, -⟩ := h.label_some ht' hd
        refine ⟨w, (hup w).2 ⟨hw, hj⟩, ⟨j1, fun g => hnn ((h.unused hw).1 g)⟩, fun w' hw' hlt => ?_⟩
        obtain ⟨hw', hle'⟩ := (hup w').1 hw'
        have := hno w'.2 hlt hle'
        rw [← h.labels hw'] at this
        simpa using this
      · intro hall
        apply Classical.byContradiction
        intro hn
        obtain ⟨w, hw, ⟨j1, j2⟩, j3⟩ := hneg.1 hn
        obtain ⟨hw, hle⟩ := (hup w).1 hw
        refine j2 ((h.unused hw).2 (hall w.2 hle ((h.labels hw).1 j1) fun i hi hi' ⟨t', c, ht', hd⟩ => ?_))
        obtain ⟨w', hw', rfl, i1, -⟩ := h.label_some ht' hd
        have := j3 w' ((hup w').2 ⟨hw', hi'⟩) hi
        rw [i1] at this
        cases this
    unfold LooseData LooseAt
    rw [first, second]
    constructor
    · rintro ⟨⟨g1, g2⟩, g3⟩
      refine ⟨⟨t, ht, hdata.1 g1⟩, fun hi => ?_, g3⟩
      rw [(h.side hc hdir z hz g1).2 hi] at g2
      cases g2
    · rintro ⟨⟨t', ht', g1⟩, g2, g3⟩
      rw [ht] at ht'
      cases ht'
      refine ⟨⟨hdata.2 g1, ?_⟩, g3⟩
      cases hi : z.1.source.insideProc with
      | false => rfl
      | true => exact (g2 ((h.side hc hdir z hz (hdata.2 g1)).1 hi)).elim
  unfold Removed RemovedAt
  rw [h1, h.alone hz]
  refine or_congr Iff.rfl ?_
  constructor
  · rintro ⟨g1, g2, g3⟩; exact ⟨g1, g2, (h2 g1 g2).1 g3⟩
  · rintro ⟨g1, g2, g3⟩; exact ⟨g1, g2, (h2 g1 g2).2 g3⟩

end Numbers

/-! ### The lines of the result -/

/-- The numbers of two numberings with the same numbers. -/
theorem numbers_agree {α β γ : Type} {xs : List γ} {a : γ → α} {b : γ → β} {zs : List (α × Nat)} {ws : List (β × Nat)}
    (h1 : zs.map (·.1) = xs.map a) (h2 : ws.map (·.1) = xs.map b) (hn : zs.map (·.2) = ws.map (·.2)) :
    ∃ ys : List (γ × Nat), ys.map (·.1) = xs ∧ (∀ y ∈ ys, (a y.1, y.2) ∈ zs ∧ (b y.1, y.2) ∈ ws) ∧ ys.map (·.2) = zs.map (·.2) := by
  induction xs generalizing zs ws with
  | nil =>
    have : zs = [] := by simpa using h1
    subst this
    exact ⟨[], rfl, by simp, rfl⟩
  | cons x xs ih =>
    cases zs with
    | nil => simp at h1
    | cons z zs =>
      cases ws with
      | nil => simp at h2
      | cons w ws =>
        simp only [List.map_cons, List.cons.injEq] at h1 h2 hn
        obtain ⟨ys, e1, e2, e3⟩ := ih h1.2 h2.2 hn.2
        refine ⟨(x, z.2) :: ys, by simp [e1], ?_, by simp [e3]⟩
        intro y hy
        rcases List.mem_cons.1 hy with rfl | hy
        · refine ⟨?_, ?_⟩
          · show (a x, z.2) ∈ z :: zs
            rw [← h1.1]; exact List.mem_cons_self
          · show (b x, z.2) ∈ w :: ws
            rw [← h2.1, hn.1]; exact List.mem_cons_self
        · exact ⟨List.mem_cons_of_mem _ (e2 y hy).1, List.mem_cons_of_mem _ (e2 y hy).2⟩

theorem pairs_agree {α β : Type} {a b : List (α × β)} (h1 : a.map (·.1) = b.map (·.1)) (h2 : a.map (·.2) = b.map (·.2)) : a = b := by
  induction a generalizing b with
  | nil => cases b with
    | nil => rfl
    | cons y b => simp at h1
  | cons x a ih =>
    cases b with
    | nil => simp at h1
    | cons y b =>
      rw [List.map_cons, List.map_cons, List.cons.injEq] at h1 h2
      rw [ih h1.2 h2.2, Prod.ext h1.1 h2.1]

variable [Recognizers]

/-- Every line of the result comes from a line that was read under the same number, whatever numbers the latter lines have: the
numbers are determined. -/
def FromRead (L : Locale) (f : Filter) (s : Str) (p : TParser) (zs : List (TLine × Nat)) : Prop :=
  ∀ ws : List (TLine × Nat), ws.map (·.1) = (heldLines L f s).filter (fun l => l.text ≠ []) → ws.Pairwise (fun a b => a.2 < b.2) →
    (∀ k, (∃ w ∈ ws, w.2 = k) ↔ ∃ t, (seen f s)[k]? = some t ∧ t.Kept f) →
    ∀ z ∈ zs, ∃ l0, z.1 = p.finishKept l0 ∧ ∃ w ∈ ws, w.2 = z.2 ∧ w.1.noUse = l0.noUse

/-- The lines of the result, given the marks. -/
theorem numbered_result {L : Locale} {f : Filter} {s : Str} {p : TParser} {x : Found} {ms : List TLine}
    (hn : ms.map TLine.noUse = (heldLines L f s).map TLine.noUse)
    (hmark : ∀ a l b, ms = a ++ l :: b → (l.isUsed = true ↔ MarkedIn x.used l b) ∧ (l.isUsedThroughAlias = true ↔ MarkedIn x.aliases l b) ∧
      (l.isUsedDataThroughAlias = true ↔ MarkedIn x.dataAliases l b))
    (hres : ∀ drop : List TLine → TLine → Bool, (∀ b l, drop b l = true ↔ Removed f b l) →
      p.lines = (remaining drop [] ms).map p.finishKept)
    (hd : DataWithoutLabels f (seen f s)) :
    ∃ zs : List (TLine × Nat), zs.map (·.1) = p.lines.filter (fun l => l.text ≠ []) ∧ zs.Pairwise (fun a b => a.2 < b.2) ∧
      (∀ z ∈ zs, ∃ t, (seen f s)[z.2]? = some t ∧ Describes (seen f s) (fun a => (p.labelsDefined.lookup a).isSome) z.2 t z.1) ∧
      (∀ k, (∃ z ∈ zs, z.2 = k) ↔ (∃ t, (seen f s)[k]? = some t ∧ t.Kept f) ∧ ¬ RemovedAt f (seen f s) x k) ∧ FromRead L f s p zs := by
  classical
  obtain ⟨zr, hzr⟩ := readHeld L f s
  obtain ⟨wr, hwr⟩ := readSides L f s
  have hok : ∀ l ∈ ((TParser.init f).readStream L s).lines, l.text = [] → l.isLabel = false := by
    intro l hl e
    rcases read_line L f s hl with h | h
    · exact (congrArg TLine.isLabel h :)
    · exact (h.text e).elim
  unfold FromRead
  unfold heldLines at hn ⊢
  generalize hr : (TParser.init f).readStream L s = r at *
  have hfilter : (ms.map TLine.noUse).filter (fun l => l.text ≠ []) = (r.lines.map TLine.noUse).filter fun l => l.text ≠ [] := by rw [hn]
  have hfm : ∀ ls : List TLine, (ls.map TLine.noUse).filter (fun l => l.text ≠ []) = (ls.filter fun l => l.text ≠ []).map TLine.noUse := by
    intro ls; rw [List.filter_map]; rfl
  rw [hfm, hfm] at hfilter
  -- the lines that were read, with numbers
  have e1 : (zr.map fun z => (z.1.noUse, z.2)).map (·.1) = (ms.filter fun l => l.text ≠ []).map fun l => l.noUse.bare := by
    have a1 := congrArg (List.map TLine.bare) hfilter
    rw [List.map_map, List.map_map] at a1
    rw [show (ms.filter fun l => l.text ≠ []).map (fun l => l.noUse.bare) = (ms.filter fun l => l.text ≠ []).map (TLine.bare ∘ TLine.noUse) from rfl, a1,
      show (zr.map fun z => (z.1.noUse, z.2)).map (·.1) = (zr.map (·.1)).map TLine.noUse by rw [List.map_map, List.map_map]; rfl, hzr.map]
    unfold TParser.held
    rw [List.filter_map, List.map_map]; rfl
  have e2 : wr.map (·.1) = (ms.filter fun l => l.text ≠ []).map TLine.inner := by
    have a1 := congrArg (List.map TLine.inner) hfilter
    rw [List.map_map, List.map_map] at a1
    rw [hwr.map]
    exact a1.symm
  have e3 : (zr.map fun z => (z.1.noUse, z.2)).map (·.2) = wr.map (·.2) := by
    rw [List.map_map]
    refine increasing_unique (List.pairwise_map.2 hzr.pair) (List.pairwise_map.2 hwr.pair) fun k => ?_
    have := (hzr.all k).trans (hwr.all k).symm
    simp only [List.mem_map]
    exact this
  obtain ⟨zl, m1, m2, m3⟩ := numbers_agree e1 e2 e3
  have m4 : zl.map (·.2) = zr.map (·.2) := by rw [m3, List.map_map]; rfl
  have il : ∀ z ∈ zl, ∃ y ∈ zr, z.1.noUse.bare = y.1.noUse ∧ z.2 = y.2 := by
    intro z hz
    obtain ⟨y, hy, e⟩ := List.mem_map.1 (m2 z hz).1
    obtain ⟨ea, eb⟩ := Prod.mk.inj e
    exact ⟨y, hy, ea.symm, eb.symm⟩
  have hb : ∀ y ∈ zr, y.1.bare = y.1 := by
    intro y hy
    have : y.1 ∈ zr.map (·.1) := List.mem_map_of_mem hy
    rw [hzr.map] at this
    obtain ⟨q, -, e⟩ := List.mem_map.1 (List.mem_filter.1 this).1
    rw [← e]; rfl
  have pl : zl.Pairwise fun a b => a.2 < b.2 := by
    have : (zr.map (·.2)).Pairwise (· < ·) := List.pairwise_map.2 hzr.pair
    rw [← m4] at this
    exact List.pairwise_map.1 this
  have hall : ∀ k, (∃ z ∈ zl, z.2 = k) ↔ ∃ t, (seen f s)[k]? = some t ∧ t.Kept f := by
    intro k
    rw [← hzr.all k]
    have : k ∈ zl.map (·.2) ↔ k ∈ zr.map (·.2) := by rw [m4]
    simpa only [List.mem_map] using this
  have hnum : Numbers f (seen f s) x ms zl := by
    refine ⟨m1, pl, hall, ?_, ?_, ?_, hmark⟩
    · intro l hl e
      have : l.noUse ∈ ms.map TLine.noUse := List.mem_map_of_mem hl
      rw [hn] at this
      obtain ⟨l0, hl0, e0⟩ := List.mem_map.1 this
      have g1 : l0.text = l.text := (congrArg TLine.text e0 :)
      have g2 : l0.isLabel = l.isLabel := (congrArg TLine.isLabel e0 :)
      rw [← g2]
      exact hok l0 hl0 (g1.trans e)
    · intro z hz
      obtain ⟨y, hy, ea, eb⟩ := il z hz
      obtain ⟨t, ht, told⟩ := hzr.told y hy
      have g1 : z.1.isLabel = y.1.isLabel := (congrArg TLine.isLabel ea :)
      have g2 : z.1.label = y.1.label := (congrArg TLine.label ea :)
      have g3 : z.1.isInternalLabel = y.1.isInternalLabel := (congrArg TLine.isInternalLabel ea :)
      have g4 : z.1.isInlineAsm = y.1.isInlineAsm := (congrArg TLine.isInlineAsm ea :)
      have g5 : z.1.isData = y.1.isData := (congrArg TLine.isData ea :)
      rw [eb, g1, g2, g3, g4, g5]
      exact ⟨t, ht, told.rest.label.imp id fun h => ⟨h.1, h.2.2⟩, told.rest.internal, told.rest.inlineAsm, told.rest.data⟩
    · intro hc hdir z hz hdata
      obtain ⟨y, hy, ea, eb⟩ := il z hz
      obtain ⟨t, ht, told⟩ := hzr.told y hy
      have g1 : z.1.isLabel = y.1.isLabel := (congrArg TLine.isLabel ea :)
      have g5 : z.1.isData = y.1.isData := (congrArg TLine.isData ea :)
      have hnd := hd hc hdir t (List.mem_of_getElem? ht) (told.rest.data.1 (g5 ▸ hdata)).2
      obtain ⟨t', ht', hside⟩ := hwr.told _ (m2 z hz).2
      have ht'' : (seen f s)[z.2]? = some t := by rw [eb]; exact ht
      obtain rfl : t' = t := by
        have := ht'.symm.trans ht''
        exact Option.some.inj this
      have hl : z.1.isLabel = false := by
        rcases told.rest.label with ⟨-, h⟩ | ⟨h, -⟩
        · exact (hnd _ h).elim
        · exact g1.trans h
      rw [← hside hnd]
      show _ ↔ (!z.1.isLabel && z.1.source.insideProc) = true
      rw [hl]; simp
  have hres := hres (fun b l => decide (Removed f b l)) fun b l => by simp
  have hrem := remaining_numbered (D := RemovedAt f (seen f s) x) (fun k => decide (¬ RemovedAt f (seen f s) x k)) (fun k => by simp)
    (drop := fun b l => decide (Removed f b l)) ms [] zl m1 fun za z zb a b g1 g2 g3 g4 => by
      rw [List.nil_append, decide_eq_true_iff]
      exact hnum.removed g1 g2 g3
  refine ⟨(zl.filter fun z => decide (¬ RemovedAt f (seen f s) x z.2)).map fun z => (p.finishKept z.1, z.2), ?_, ?_, ?_, ?_, ?_⟩
  · rw [hres, List.filter_map, List.map_map]
    have : (fun l : TLine => decide (l.text ≠ [])) ∘ p.finishKept = fun l => decide (l.text ≠ []) := by
      funext l; simp [finishKept_text]
    rw [this, hrem, List.map_map]; rfl
  · rw [List.pairwise_map]
    exact pl.sublist List.filter_sublist
  · intro z hz
    obtain ⟨w, hw, rfl⟩ := List.mem_map.1 hz
    obtain ⟨y, hy, ea, eb⟩ := il w (List.mem_filter.1 hw).1
    obtain ⟨t, ht, htold⟩ := hzr.told y hy
    rw [show (p.finishKept w.1, w.2).2 = y.2 from eb]
    refine ⟨t, ht, htold.rest.congr ?_ ?_⟩
    · show (p.finishKept w.1).core.bare = y.1.core.bare
      rw [finishKept_core]
      have := congrArg (fun l => l.core.bare) ea
      exact this
    · show (p.finishKept w.1).labels.map (·.name) = _
      have el : w.1.labels = y.1.labels := (congrArg TLine.labels ea :)
      rw [finishKept_labels, el, htold.refs]
      split
      · rw [← usedLabels_names L, List.filter_map]; rfl
      · rfl
  · intro k
    constructor
    · rintro ⟨z, hz, rfl⟩
      obtain ⟨w, hw, rfl⟩ := List.mem_map.1 hz
      obtain ⟨hw1, hw2⟩ := List.mem_filter.1 hw
      exact ⟨(hall _).1 ⟨w, hw1, rfl⟩, by simpa using hw2⟩
    · rintro ⟨h1, h2⟩
      obtain ⟨z, hz, rfl⟩ := (hall k).2 h1
      exact ⟨_, List.mem_map_of_mem (List.mem_filter.2 ⟨hz, by simpa using h2⟩), rfl⟩
  · intro ws a1 a2 a3 z hz
    obtain ⟨w, hw, rfl⟩ := List.mem_map.1 hz
    have e4 : zl.map (fun z => (z.1.noUse, z.2)) = ws.map fun z => (z.1.noUse, z.2) := by
      refine pairs_agree ?_ ?_
      · rw [List.map_map, List.map_map]
        show zl.map (TLine.noUse ∘ (·.1)) = ws.map (TLine.noUse ∘ (·.1))
        rw [← List.map_map, ← List.map_map, m1, a1]
        exact hfilter
      · rw [List.map_map, List.map_map]
        refine increasing_unique (List.pairwise_map.2 pl) (List.pairwise_map.2 a2) fun k => ?_
        have := (hall k).trans (a3 k).symm
        simp only [List.mem_map]
        exact this
    have hm : (w.1.noUse, w.2) ∈ zl.map fun z => (z.1.noUse, z.2) := List.mem_map.2 ⟨w, (List.mem_filter.1 hw).1, rfl⟩
    rw [e4] at hm
    obtain ⟨y, hy, e⟩ := List.mem_map.1 hm
    obtain ⟨ea, eb⟩ := Prod.mk.inj e
    exact ⟨w.1, rfl, y, hy, eb, ea⟩

/-- It is enough to look at the lines that were read. -/
theorem dataWithoutLabels_of_held {L : Locale} {f : Filter} {s : Str} (h : ∀ l ∈ heldLines L f s, l.isData = true → l.isLabel = false) :
    DataWithoutLabels f (seen f s) := by
  intro _ _ t ht hdata a ha
  obtain ⟨k, hk⟩ := List.mem_iff_getElem?.1 ht
  obtain ⟨zr, hzr⟩ := readHeld L f s
  obtain ⟨z, hz, rfl⟩ := (hzr.all k).2 ⟨t, hk, ha.kept f⟩
  obtain ⟨t', ht', told⟩ := hzr.told z hz
  rw [hk] at ht'
  cases ht'
  have : z.1 ∈ zr.map (·.1) := List.mem_map_of_mem hz
  rw [hzr.map] at this
  obtain ⟨q, hq, e⟩ := List.mem_map.1 (List.mem_filter.1 this).1
  have h1 : q.isData = true := (congrArg TLine.isData e :).trans (told.rest.data.2 ⟨ha.2.1, hdata⟩)
  have h2 : q.isLabel = z.1.isLabel := (congrArg TLine.isLabel e :)
  rcases told.rest.label with ⟨h3, -⟩ | ⟨-, -, h3⟩
  · rw [← h2, h q hq h1] at h3; cases h3
  · exact h3 a ha

end AsmParser
