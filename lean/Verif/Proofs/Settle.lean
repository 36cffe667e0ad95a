import Verif.Proofs.Held
import Verif.Spec.Settle

/-! Which directive gives a label its source position, for C60. -/

namespace AsmParser

attribute [local irreducible] Re.search Re.fullMatch

/-- The lines stored, blank ones too, with the numbers of their texts. -/
structure Stored (f : Filter) (gs : List Nat) (ts : List Seen) (xs : List ((Str × Bool × Bool) × Nat)) : Prop where
  order : xs.Pairwise fun a b => a.1.1 ≠ [] → a.2 < b.2
  lt : ∀ x ∈ xs, x.1.1 ≠ [] → x.2 < ts.length
  blank : ∀ x ∈ xs, x.1.1 = [] → x.1.2.1 = false ∧ x.2 ∈ gs
  kept : ∀ k, (∃ x ∈ xs, x.1.1 ≠ [] ∧ x.2 = k) ↔ ∃ t, ts[k]? = some t ∧ t.Kept f
  spec : ∀ x ∈ xs, x.1.1 ≠ [] → ∀ t, ts[x.2]? = some t → ((x.1.2.1 = true ∧ x.1.2.2 = true) ↔ t.InternalLabel)
  gap : ∀ xa x xb, xs = xa ++ x :: xb → x.1.1 ≠ [] → ∀ i ∈ gs, x.2 < i → ∃ b ∈ xb, b.1.1 = []
  gle : ∀ i ∈ gs, i ≤ ts.length

theorem snoc_split {α : Type} {xs xa xb : List α} {x y : α} (e : xs ++ [y] = xa ++ x :: xb) :
    (xs = xa ∧ y = x ∧ xb = []) ∨ ∃ xb', xb = xb' ++ [y] ∧ xs = xa ++ x :: xb' := by
  rcases List.eq_nil_or_concat xb with rfl | ⟨b, w, rfl⟩
  · obtain ⟨e1, e2⟩ := List.append_inj' e rfl
    simp only [List.cons.injEq, and_true] at e2
    exact .inl ⟨e1, e2, rfl⟩
  · have e' : xs ++ [y] = (xa ++ x :: b) ++ [w] := by rw [e]; simp
    obtain ⟨e1, e2⟩ := List.append_inj' e' rfl
    simp only [List.cons.injEq, and_true] at e2
    exact .inr ⟨b, by simp [e2], e1⟩

variable {f : Filter} {gs : List Nat} {ts : List Seen} {xs : List ((Str × Bool × Bool) × Nat)}

theorem Stored.addBlank (h : Stored f gs ts xs) : Stored f (gs ++ [ts.length]) ts (xs ++ [(([], false, false), ts.length)]) := by
  refine ⟨?_, ?_, ?_, ?_, ?_, ?_, ?_⟩
  · rw [List.pairwise_append]
    refine ⟨h.order, by simp, fun a ha b hb hn => ?_⟩
    rw [List.mem_singleton] at hb; subst hb
    exact h.lt a ha hn
  · intro x hx hn
    rcases List.mem_append.1 hx with hx | hx
    · exact h.lt x hx hn
    · rw [List.mem_singleton] at hx; subst hx; exact (hn rfl).elim
  · intro x hx hn
    rcases List.mem_append.1 hx with hx | hx
    · exact ⟨(h.blank x hx hn).1, List.mem_append_left _ (h.blank x hx hn).2⟩
    · rw [List.mem_singleton] at hx; subst hx; exact ⟨rfl, by simp⟩
  · intro k
    rw [← h.kept]
    constructor
    · rintro ⟨x, hx, hn, e⟩
      rcases List.mem_append.1 hx with hx | hx
      · exact ⟨x, hx, hn, e⟩
      · rw [List.mem_singleton] at hx; subst hx; exact (hn rfl).elim
    · rintro ⟨x, hx, hn, e⟩
      exact ⟨x, List.mem_append_left _ hx, hn, e⟩
  · intro x hx hn
    rcases List.mem_append.1 hx with hx | hx
    · exact h.spec x hx hn
    · rw [List.mem_singleton] at hx; subst hx; exact (hn rfl).elim
  · intro xa x xb e hn i hi hlt
    rcases snoc_split e with ⟨-, rfl, -⟩ | ⟨xb', rfl, e'⟩
    · exact (hn rfl).elim
    · exact ⟨_, List.mem_append_right _ (List.mem_singleton.2 rfl), rfl⟩
  · intro i hi
    rcases List.mem_append.1 hi with hi | hi
    · exact h.gle i hi
    · rw [List.mem_singleton] at hi; omega

theorem Stored.addGap (h : Stored f gs ts xs) (hl : ∀ x, xs.getLast? = some x → x.1.1 = []) : Stored f (gs ++ [ts.length]) ts xs := by
  refine ⟨h.order, h.lt, fun x hx hn => ⟨(h.blank x hx hn).1, List.mem_append_left _ (h.blank x hx hn).2⟩, h.kept, h.spec, ?_, ?_⟩
  · intro xa x xb e hn i hi hlt
    rcases List.eq_nil_or_concat xb with rfl | ⟨b, w, rfl⟩
    · exact (hn (hl x (by rw [e]; simp))).elim
    · exact ⟨w, by simp, hl w (by rw [e, List.concat_eq_append, ← List.cons_append, ← List.append_assoc]; exact List.getLast?_concat)⟩
  · intro i hi
    rcases List.mem_append.1 hi with hi | hi
    · exact h.gle i hi
    · rw [List.mem_singleton] at hi; omega

theorem Stored.drop (h : Stored f gs ts xs) {t : Seen} (ht : ¬ t.Kept f) : Stored f gs (ts ++ [t]) xs := by
  refine ⟨h.order, fun x hx hn => ?_, h.blank, fun k => ?_, fun x hx hn => ?_, h.gap, fun i hi => ?_⟩
  · have := h.lt x hx hn
    simp only [List.length_append, List.length_singleton]; omega
  · rw [h.kept]
    constructor
    · rintro ⟨u, hu, hk⟩
      have := (List.getElem?_eq_some_iff.1 hu).1
      exact ⟨u, by rw [List.getElem?_append_left this]; exact hu, hk⟩
    · rintro ⟨u, hu, hk⟩
      rcases get_snoc hu with hu | ⟨-, rfl⟩
      · exact ⟨u, hu, hk⟩
      · exact (ht hk).elim
  · rw [List.getElem?_append_left (h.lt x hx hn)]
    exact h.spec x hx hn
  · have := h.gle i hi
    simp only [List.length_append, List.length_singleton]; omega

theorem Stored.push (h : Stored f gs ts xs) {t : Seen} {c : Str × Bool × Bool} (ht : t.Kept f) (hc : c.1 ≠ [])
    (hs : (c.2.1 = true ∧ c.2.2 = true) ↔ t.InternalLabel) : Stored f gs (ts ++ [t]) (xs ++ [(c, ts.length)]) := by
  refine ⟨?_, fun x hx hn => ?_, fun x hx hn => ?_, fun k => ?_, fun x hx hn => ?_, fun xa x xb e hn i hi hlt => ?_, fun i hi => ?_⟩
  · rw [List.pairwise_append]
    refine ⟨h.order, by simp, fun a ha b hb hn => ?_⟩
    rw [List.mem_singleton] at hb; subst hb
    exact h.lt a ha hn
  · simp only [List.length_append, List.length_singleton]
    rcases List.mem_append.1 hx with hx | hx
    · have := h.lt x hx hn; omega
    · rw [List.mem_singleton] at hx; subst hx; simp
  · rcases List.mem_append.1 hx with hx | hx
    · exact h.blank x hx hn
    · rw [List.mem_singleton] at hx; subst hx; exact (hc hn).elim
  · constructor
    · rintro ⟨x, hx, hn, rfl⟩
      rcases List.mem_append.1 hx with hx | hx
      · rw [List.getElem?_append_left (h.lt x hx hn)]
        exact (h.kept _).1 ⟨x, hx, hn, rfl⟩
      · rw [List.mem_singleton] at hx; subst hx; exact ⟨t, by simp, ht⟩
    · rintro ⟨u, hu, hk⟩
      rcases get_snoc hu with hu | ⟨rfl, rfl⟩
      · obtain ⟨x, hx, hn, e⟩ := (h.kept k).2 ⟨u, hu, hk⟩
        exact ⟨x, List.mem_append_left _ hx, hn, e⟩
      · exact ⟨_, List.mem_append_right _ (List.mem_singleton.2 rfl), hc, rfl⟩
  · rcases List.mem_append.1 hx with hx | hx
    · rw [List.getElem?_append_left (h.lt x hx hn)]
      exact h.spec x hx hn
    · rw [List.mem_singleton] at hx; subst hx
      intro u hu
      simp only [List.getElem?_append_right (Nat.le_refl _), Nat.sub_self, List.getElem?_cons_zero, Option.some.injEq] at hu
      subst hu; exact hs
  · rcases snoc_split e with ⟨-, rfl, -⟩ | ⟨xb', rfl, e'⟩
    · have := h.gle i hi
      have : ts.length < i := hlt
      omega
    · obtain ⟨b, hb, hb'⟩ := h.gap xa x xb' e' hn i hi hlt
      exact ⟨b, List.mem_append_left _ hb, hb'⟩
  · have := h.gle i hi
    simp only [List.length_append, List.length_singleton]; omega

/-! ### With positions -/

/-- Nothing in between, by what is stored. -/
def Clear (gs : List Nat) (xs : List ((Str × Bool × Bool) × Nat)) (k j : Nat) : Prop :=
  (∀ i, k < i → i ≤ j → i ∉ gs) ∧ ∀ x ∈ xs, x.1.1 ≠ [] → k < x.2 → x.2 < j → x.1.2.1 = true ∧ x.1.2.2 = true

/-- The lines stored with the numbers of their texts and the numbers of the texts that give the positions; `ts0` are the texts
that were stored, `ts` those whose directives were read. -/
structure Settled (f : Filter) (gs : List Nat) (ts0 ts : List Seen) (ls : List TLine) (ws : List (TLine × Nat × Nat)) : Prop where
  map : ws.map (·.1) = ls
  stored : Stored f gs ts0 (ws.map tagOf)
  good : ∀ w ∈ ws, w.1.text ≠ [] → Numbered ts w.1 w.2.1 w.2.2
  stay : ∀ w ∈ ws, w.1.text ≠ [] → w.2.2 ≠ w.2.1 → (∃ t, ts[w.2.2]? = some t ∧ MovesLabels t.text ∧ ¬ t.Ends) ∧ Clear gs (ws.map tagOf) w.2.1 w.2.2
  next : ∀ w ∈ ws, w.1.text ≠ [] → w.1.isLabel = true → ∀ j t, w.2.1 < j → ts[j]? = some t → MovesLabels t.text → ¬ t.Ends →
    Clear gs (ws.map tagOf) w.2.1 j → j ≤ w.2.2

variable {ls : List TLine} {ws : List (TLine × Nat × Nat)}

theorem Settled.addBlank (h : Settled f gs ts ts ls ws) {l : TLine} (hl : l.kind = ([], false, false)) :
    Settled f (gs ++ [ts.length]) ts ts (ls ++ [l]) (ws ++ [(l, ts.length, ts.length)]) := by
  have hlt : l.text = [] := (congrArg (·.1) hl :)
  have et : (ws ++ [(l, ts.length, ts.length)]).map tagOf = ws.map tagOf ++ [(([], false, false), ts.length)] := by
    rw [List.map_append]; show _ ++ [(l.kind, ts.length)] = _; rw [hl]
  refine ⟨by rw [List.map_append, h.map]; rfl, by rw [et]; exact h.stored.addBlank, ?_, ?_, ?_⟩
  · intro w hw hn
    rcases List.mem_append.1 hw with hw | hw
    · exact h.good w hw hn
    · rw [List.mem_singleton] at hw; subst hw; exact (hn hlt).elim
  · intro w hw hn hm
    rcases List.mem_append.1 hw with hw | hw
    · obtain ⟨h1, h2, h3⟩ := h.stay w hw hn hm
      have hg := (h.good w hw hn).lt
      refine ⟨h1, fun i hi hj hc => ?_, fun x hx => ?_⟩
      · rcases List.mem_append.1 hc with hc | hc
        · exact h2 i hi hj hc
        · rw [List.mem_singleton] at hc; omega
      · rw [et] at hx
        rcases List.mem_append.1 hx with hx | hx
        · exact h3 x hx
        · rw [List.mem_singleton] at hx; subst hx; exact fun hn => (hn rfl).elim
    · rw [List.mem_singleton] at hw; subst hw; exact (hn hlt).elim
  · intro w hw hn hlab j t a1 a2 a3 a4 a5
    rcases List.mem_append.1 hw with hw | hw
    · refine h.next w hw hn hlab j t a1 a2 a3 a4 ⟨fun i hi hj hc => a5.1 i hi hj (List.mem_append_left _ hc), fun x hx => a5.2 x ?_⟩
      rw [et]; exact List.mem_append_left _ hx
    · rw [List.mem_singleton] at hw; subst hw; exact (hn hlt).elim

theorem Settled.addGap (h : Settled f gs ts ts ls ws) (hl : ∀ l, ls.getLast? = some l → l.text = []) :
    Settled f (gs ++ [ts.length]) ts ts ls ws := by
  refine ⟨h.map, h.stored.addGap ?_, h.good, ?_, ?_⟩
  · intro x hx
    rw [List.getLast?_map] at hx
    cases hw : ws.getLast? with
    | none => rw [hw] at hx; cases hx
    | some w =>
      rw [hw] at hx
      simp only [Option.map_some, Option.some.injEq] at hx
      subst hx
      exact hl w.1 (by rw [← h.map, List.getLast?_map, hw]; rfl)
  · intro w hw hn hm
    obtain ⟨h1, h2, h3⟩ := h.stay w hw hn hm
    have hg := (h.good w hw hn).lt
    refine ⟨h1, fun i hi hj hc => ?_, h3⟩
    rcases List.mem_append.1 hc with hc | hc
    · exact h2 i hi hj hc
    · rw [List.mem_singleton] at hc; omega
  · intro w hw hn hlab j t a1 a2 a3 a4 a5
    exact h.next w hw hn hlab j t a1 a2 a3 a4 ⟨fun i hi hj hc => a5.1 i hi hj (List.mem_append_left _ hc), a5.2⟩

/-- Splitting the lines. -/
theorem split_lines {a labs : List TLine} (h : ws.map (·.1) = a ++ labs) :
    ∃ wa wl, ws = wa ++ wl ∧ wa.map (·.1) = a ∧ wl.map (·.1) = labs := List.map_eq_append_iff.1 h

theorem Settled.pre {p : TParser} {ts0 ts : List Seen} (h : Settled f gs ts0 ts p.lines ws) : ∃ ws', Settled f gs ts0 ts p.pre.lines ws' := by
  unfold TParser.pre
  split
  · rcases mark_split p.nested with e | ⟨a, l, e1, h1, e2⟩
    · rw [e]; exact ⟨ws, h⟩
    · rw [e2]
      rw [show p.nested.lines = p.lines from rfl] at e1
      rw [e1] at h
      obtain ⟨wa, wl, rfl, ha, hl⟩ := split_lines h.map
      let g : TLine → TLine := fun l => { l with source := { l.source with insideProc := true } }
      have et : (wa ++ wl.map fun w => (g w.1, w.2)).map tagOf = (wa ++ wl).map tagOf := by
        rw [List.map_append, List.map_append, List.map_map]; rfl
      have hmem : ∀ w : TLine × Nat × Nat, w ∈ wa ++ wl.map (fun w => (g w.1, w.2)) → ∃ v ∈ wa ++ wl, w.1.kind = v.1.kind ∧ w.2 = v.2 ∧
          (∀ k m, Numbered ts v.1 k m → Numbered ts w.1 k m) := by
        intro w hw
        rcases List.mem_append.1 hw with hw | hw
        · exact ⟨w, List.mem_append_left _ hw, rfl, rfl, fun _ _ h => h⟩
        · obtain ⟨y, hy, rfl⟩ := List.mem_map.1 hw
          exact ⟨y, List.mem_append_right _ hy, rfl, rfl, fun k m ⟨g1, g2, g3, g4, g5, g8, q, g6, g7⟩ =>
            ⟨g1, g2, g3, g4, g5, g8, q, g6, g7.inside⟩⟩
      refine ⟨wa ++ wl.map fun w => (g w.1, w.2), ?_, by rw [et]; exact h.stored, ?_, ?_, ?_⟩
      · rw [List.map_append, ha, List.map_map]
        congr 1
        have : ((fun w : TLine × Nat × Nat => w.1) ∘ fun w : TLine × Nat × Nat => (g w.1, w.2)) = g ∘ fun w => w.1 := rfl
        rw [this, ← List.map_map, hl]; rfl
      · intro w hw hn
        obtain ⟨v, hv, e3, e4, e5⟩ := hmem w hw
        have t1 : w.1.text = v.1.text := (congrArg (·.1) e3 :)
        rw [e4]
        exact e5 _ _ (h.good v hv (t1 ▸ hn))
      · intro w hw hn
        obtain ⟨v, hv, e3, e4, e5⟩ := hmem w hw
        have t1 : w.1.text = v.1.text := (congrArg (·.1) e3 :)
        rw [e4, et]
        exact h.stay v hv (t1 ▸ hn)
      · intro w hw hn hlab
        obtain ⟨v, hv, e3, e4, e5⟩ := hmem w hw
        have t1 : w.1.text = v.1.text := (congrArg (·.1) e3 :)
        have t2 : w.1.isLabel = v.1.isLabel := (congrArg (·.2.1) e3 :)
        rw [e4, et]
        exact h.next v hv (t1 ▸ hn) (t2 ▸ hlab)
  · exact ⟨ws, h⟩

theorem Settled.step {t : Seen} {ls' : List TLine} {src : TSource} (h : Settled f gs ts ts ls ws) (ha : Amd t ls ls' src)
    (hq : ∃ q, PositionAt (ts ++ [t]) q ∧ Holds q src) : ∃ ws', Settled f gs ts (ts ++ [t]) ls' ws' := by
  have hstay : ∀ w ∈ ws, w.1.text ≠ [] → w.2.2 ≠ w.2.1 →
      (∃ u, (ts ++ [t])[w.2.2]? = some u ∧ MovesLabels u.text ∧ ¬ u.Ends) ∧ Clear gs (ws.map tagOf) w.2.1 w.2.2 := by
    intro w hw hn hm
    obtain ⟨⟨u, h1, h2⟩, h3⟩ := h.stay w hw hn hm
    exact ⟨⟨u, by rw [List.getElem?_append_left (h.good w hw hn).lt]; exact h1, h2⟩, h3⟩
  rcases ha with ⟨rfl, hno⟩ | ⟨hm, a, labs, rfl, h1, full, rfl, hint, hne⟩
  · refine ⟨ws, h.map, h.stored, fun w hw hn => (h.good w hw hn).snoc t, hstay, ?_⟩
    intro w hw hn hlab j u a1 a2 a3 a4 a5
    rcases get_snoc a2 with a2 | ⟨-, rfl⟩
    · exact h.next w hw hn hlab j u a1 a2 a3 a4 a5
    · exact (hno a4 a3).elim
  · obtain ⟨wa, wl, rfl, ea, el⟩ := split_lines h.map
    have hst := h.stored
    have et : (wa ++ wl.map fun w => (TLine.amend src w.1, w.2.1, ts.length)).map tagOf = (wa ++ wl).map tagOf := by
      rw [List.map_append, List.map_append, List.map_map]; rfl
    have hlab : ∀ w ∈ wl, w.1.isLabel = true := fun w hw => h1 w.1 (by rw [← el]; exact List.mem_map_of_mem hw)
    have hk : ∀ w ∈ wa ++ wl, w.1.text ≠ [] → w.2.1 < ts.length := fun w hw hn =>
      hst.lt (tagOf w) (List.mem_map_of_mem hw) hn
    have hnb : ∀ w ∈ wl, w.1.text ≠ [] := by
      intro w hw hc
      have := hst.blank (tagOf w) (List.mem_map_of_mem (List.mem_append_right _ hw)) hc
      have h2 : w.1.isLabel = false := this.1
      rw [hlab w hw] at h2; cases h2
    refine ⟨_, ?_, by rw [et]; exact hst, ?_, ?_, ?_⟩
    · rw [List.map_append, ea, List.map_map]
      congr 1
      have : ((fun w : TLine × Nat × Nat => w.1) ∘ fun w : TLine × Nat × Nat => (TLine.amend src w.1, w.2.1, ts.length)) = TLine.amend src ∘ (·.1) := rfl
      rw [this, ← List.map_map, el]
    · intro w hw hn
      rcases List.mem_append.1 hw with hw | hw
      · exact (h.good w (List.mem_append_left _ hw) hn).snoc t
      · obtain ⟨y, hy, rfl⟩ := List.mem_map.1 hw
        have hg := (h.good y (List.mem_append_right _ hy) hn).snoc t
        have := hk y (List.mem_append_right _ hy) hn
        obtain ⟨q, q1, q2⟩ := hq
        refine ⟨hg.text, hg.sect, Nat.le_of_lt this, by simp, fun h => ?_, fun _ => ⟨t, by simp, hm⟩, q, ?_, q2.user _⟩
        · exact absurd ((hlab y hy).symm.trans h) (by simp)
        · rw [take_self]; exact q1
    · intro w hw hn hne'
      rw [et]
      rcases List.mem_append.1 hw with hw | hw
      · exact hstay w (List.mem_append_left _ hw) hn hne'
      · obtain ⟨y, hy, rfl⟩ := List.mem_map.1 hw
        obtain ⟨ya, yb, rfl⟩ := List.append_of_mem hy
        have hyt : (tagOf y).1.1 ≠ [] := hn
        have esplit : (wa ++ (ya ++ y :: yb)).map tagOf = (wa ++ ya).map tagOf ++ tagOf y :: yb.map tagOf := by simp
        refine ⟨⟨t, by simp, hm, hne⟩, fun i hi hj hc => ?_, fun x hx hxn h2 h3 => ?_⟩
        · obtain ⟨b, hb, hb'⟩ := hst.gap _ (tagOf y) _ esplit hyt i hc hi
          obtain ⟨v, hv, rfl⟩ := List.mem_map.1 hb
          exact hnb v (by simp [hv]) hb'
        · have hord := hst.order
          rw [esplit] at hord hx
          rw [List.pairwise_append, List.pairwise_cons] at hord
          obtain ⟨-, ⟨-, -⟩, o3⟩ := hord
          rcases List.mem_append.1 hx with hx | hx
          · have := o3 x hx (tagOf y) (by simp) hxn
            have h2 : (tagOf y).2 < x.2 := h2
            omega
          · rcases List.mem_cons.1 hx with rfl | hx
            · exact absurd h2 (Nat.lt_irrefl _)
            · obtain ⟨v, hv, rfl⟩ := List.mem_map.1 hx
              refine ⟨hlab v (by simp [hv]), hint v.1 ?_⟩
              rw [← el]
              cases ya with
              | nil => simpa using ⟨_, _, hv⟩
              | cons z ya => simpa using .inr (.inr ⟨_, _, hv⟩)
    · intro w hw hn hlw j u a1 a2 a3 a4 a5
      rw [et] at a5
      have hj := (List.getElem?_eq_some_iff.1 a2).1
      simp only [List.length_append, List.length_singleton] at hj
      rcases List.mem_append.1 hw with hw | hw
      · rcases get_snoc a2 with a2 | ⟨rfl, rfl⟩
        · exact h.next w (List.mem_append_left _ hw) hn hlw j u a1 a2 a3 a4 a5
        · -- it would have been amended
          exfalso
          obtain ⟨xa, xb, rfl⟩ := List.append_of_mem hw
          have esplit : (xa ++ w :: xb ++ wl).map tagOf = xa.map tagOf ++ tagOf w :: (xb ++ wl).map tagOf := by simp
          have hord := hst.order
          rw [esplit] at hord
          rw [List.pairwise_append, List.pairwise_cons] at hord
          obtain ⟨-, ⟨o2, -⟩, -⟩ := hord
          -- all lines after `w` are internal labels
          have hall : ∀ v ∈ xb ++ wl, v.1.isLabel = true ∧ v.1.isInternalLabel = true := by
            intro v hv
            have hvm : v ∈ xa ++ w :: xb ++ wl := by
              rcases List.mem_append.1 hv with hv | hv
              · simp [hv]
              · simp [hv]
            have hwv : w.2.1 < v.2.1 := o2 (tagOf v) (List.mem_map_of_mem hv) hn
            by_cases hvn : v.1.text = []
            · have hb := (hst.blank (tagOf v) (List.mem_map_of_mem hvm) hvn).2
              exact (a5.1 v.2.1 hwv (hst.gle _ hb) hb).elim
            · exact a5.2 (tagOf v) (List.mem_map_of_mem hvm) hvn hwv (hk v hvm hvn)
          rcases List.eq_nil_or_concat xb with rfl | ⟨b, z, rfl⟩
          · obtain ⟨y, hy, hyi⟩ := full w.1 (by rw [← ea]; simp) hlw
            rw [← el, List.head?_map] at hy
            cases hwl : wl.head? with
            | none => rw [hwl] at hy; cases hy
            | some v =>
              rw [hwl] at hy
              simp only [Option.map_some, Option.some.injEq] at hy
              subst hy
              have := (hall v (List.mem_append_right _ (List.mem_of_mem_head? hwl))).2
              rw [hyi] at this; cases this
          · obtain ⟨y, hy, hyi⟩ := full z.1 (by
              rw [← ea, List.concat_eq_append, ← List.cons_append, ← List.append_assoc, List.map_append]
              exact List.getLast?_concat) (hall z (by simp)).1
            rw [← el, List.head?_map] at hy
            cases hwl : wl.head? with
            | none => rw [hwl] at hy; cases hy
            | some v =>
              rw [hwl] at hy
              simp only [Option.map_some, Option.some.injEq] at hy
              subst hy
              have := (hall v (List.mem_append_right _ (List.mem_of_mem_head? hwl))).2
              rw [hyi] at this; cases this
      · obtain ⟨y, hy, rfl⟩ := List.mem_map.1 hw
        show j ≤ ts.length
        omega

theorem Settled.drop {t : Seen} (h : Settled f gs ts (ts ++ [t]) ls ws) (ht : ¬ t.Kept f) : Settled f gs (ts ++ [t]) (ts ++ [t]) ls ws :=
  ⟨h.map, h.stored.drop ht, h.good, h.stay, h.next⟩

theorem Settled.push {t : Seen} {ln : TLine} (h : Settled f gs ts (ts ++ [t]) ls ws) (ht : t.Kept f) (hn : ln.text ≠ [])
    (hi : (ln.isLabel = true ∧ ln.isInternalLabel = true) ↔ t.InternalLabel) (h1 : ln.text = t.text) (h2 : SectionAt (ts ++ [t]) ln.sect.s)
    (h3 : ∃ q, PositionAt (ts ++ [t]) q ∧ Holds q ln.source) :
    Settled f gs (ts ++ [t]) (ts ++ [t]) (ls ++ [ln]) (ws ++ [(ln, ts.length, ts.length)]) := by
  have et : (ws ++ [(ln, ts.length, ts.length)]).map tagOf = ws.map tagOf ++ [(ln.kind, ts.length)] := by
    rw [List.map_append]; rfl
  refine ⟨by rw [List.map_append, h.map]; rfl, by rw [et]; exact h.stored.push ht hn hi, ?_, ?_, ?_⟩
  · intro w hw hwn
    rcases List.mem_append.1 hw with hw | hw
    · exact h.good w hw hwn
    · rw [List.mem_singleton] at hw; subst hw
      exact ⟨by simp [h1], by rw [take_self]; exact h2, Nat.le_refl _, by simp, fun _ => rfl, fun h => (h rfl).elim, by rw [take_self]; exact h3⟩
  · intro w hw hwn hm
    rcases List.mem_append.1 hw with hw | hw
    · obtain ⟨a1, a2, a3⟩ := h.stay w hw hwn hm
      refine ⟨a1, a2, fun x hx hxn b1 b2 => ?_⟩
      rw [et] at hx
      rcases List.mem_append.1 hx with hx | hx
      · exact a3 x hx hxn b1 b2
      · rw [List.mem_singleton] at hx; subst hx
        have := (h.good w hw hwn).lt
        simp only [List.length_append, List.length_singleton] at this
        have b2 : ts.length < w.2.2 := b2
        omega
    · rw [List.mem_singleton] at hw; subst hw; exact (hm rfl).elim
  · intro w hw hwn hl j u a1 a2 a3 a4 a5
    rcases List.mem_append.1 hw with hw | hw
    · refine h.next w hw hwn hl j u a1 a2 a3 a4 ⟨a5.1, fun x hx => a5.2 x ?_⟩
      rw [et]; exact List.mem_append_left _ hx
    · rw [List.mem_singleton] at hw; subst hw
      have := (List.getElem?_eq_some_iff.1 a2).1
      simp only [List.length_append, List.length_singleton] at this
      have a1 : ts.length < j := a1
      omega

/-! ### Reading -/

variable [Recognizers]

theorem see_gaps (f : Filter) (sc : Scan) (raw text : Str) : (Scan.see f sc raw text).gaps = sc.gaps := by
  unfold Scan.see
  simp only
  by_cases h1 : f.directives = true ∧ sc.placed = false ∧ occurs b! ".cfi_startproc" text = true
  · rw [if_pos h1]
  · rw [if_neg h1]
    simp only [apply_ite Scan.gaps, ite_self]

theorem line_gaps (f : Filter) (sc : Scan) (p : TParser) (l : Str) (hf : p.filter = f) (h : ReadInv sc p) :
    (Scan.line f sc l).gaps =
      if (!(p.addText l).inBlock && isEmptyOrJustWhitespace (p.addText l).st.text) = true
      then sc.gaps ++ [sc.texts.length] else sc.gaps := by
  have hraw : (p.addText l).st.text = sc.carry ++ l := by show p.st.text ++ l = _; rw [h.carry]
  have hblk : (p.addText l).inBlock = (f.commentOnly && (sc.inside || opensComment (sc.carry ++ l))) := by
    unfold TParser.inBlock
    rw [show (p.addText l).filter = f from hf, hraw, startCommentBlock_opens,
      show (p.addText l).st.hasStartedCommentBlock = p.st.hasStartedCommentBlock from rfl, h.inside]
  clear h hf
  unfold Scan.line
  simp only
  rw [← hblk, ← white_scan, ← hraw]
  generalize p.addText l = p at *
  cases h1 : p.inBlock with
  | true => simp
  | false =>
    cases h2 : isEmptyOrJustWhitespace p.st.text with
    | true => simp
    | false =>
      simp only [Bool.false_eq_true, if_false, Bool.not_false, Bool.true_and]
      exact see_gaps _ _ _ _

omit [Recognizers] in
/-- Without a new blank line, the last line is one already. -/
theorem maybeAddBlank_last (p : TParser) (n : Nat) : (p.maybeAddBlank n = p ∧ ∀ l, p.lines.getLast? = some l → l.text = []) ∨
    p.maybeAddBlank n = { p with lines := p.lines ++ [{ id := n }] } := by
  unfold TParser.maybeAddBlank
  split
  · rename_i h
    exact .inl ⟨rfl, fun l hl => by rw [h] at hl; cases hl⟩
  · rename_i l h
    split
    · rename_i h'
      refine .inl ⟨rfl, fun x hx => ?_⟩
      rw [h] at hx
      simp only [Option.some.injEq] at hx
      subst hx
      simpa using h'
    · exact .inr rfl

theorem settled_step (L : Locale) (f : Filter) (sc : Scan) (p : TParser) (l : Str) (hf : p.filter = f) (hb : Basic p)
    (h : ReadInv sc p) (hg : LabelInv sc.texts p) (hw : ∃ ws, Settled f sc.gaps sc.texts sc.texts p.lines ws) :
    ∃ ws, Settled f (Scan.line f sc l).gaps (Scan.line f sc l).texts (Scan.line f sc l).texts ((p.addText l).eol L).lines ws := by
  have hn := (labelInv_step L f sc p l hf hb h hg).graph.parent
  have ht := line_texts f sc p l hf h
  have hgap := line_gaps f sc p l hf h
  have hhe := eol_held L (p.addText l) (basic_addText hb l)
  have hsrc := eol_src L (p.addText l) (basic_addText hb l)
  have hstate : SrcState sc.texts (p.addText l) := h.state.congr rfl
  obtain ⟨ws, hw⟩ : ∃ ws, Settled f sc.gaps sc.texts sc.texts (p.addText l).lines ws := hw
  have hfl : (p.addText l).filter = f := hf
  clear h hg hb hf
  rw [ht] at hn ⊢
  rw [hgap]
  clear ht hgap
  generalize p.addText l = p at *
  generalize p.eol L = p' at *
  have hk := seen_kept p
  rw [hfl] at hk
  rcases hsrc with ⟨h1, e1, -⟩ | ⟨h1, h2, e1, -⟩ | ⟨h1, h2, h3, h4, e1, -⟩ | ⟨h1, h2, h3, e1, -⟩
  · rw [if_neg (by rw [h1]; simp), if_pos (by rw [h1]; rfl), e1]
    exact ⟨ws, hw⟩
  · rw [if_pos (by rw [h1, h2]; rfl), if_pos (by rw [h2]; simp), e1]
    rcases maybeAddBlank_last p.start (p.nextId + 1) with ⟨e, hl⟩ | e
    · rw [e]; exact ⟨ws, hw.addGap hl⟩
    · rw [e]; exact ⟨_, hw.addBlank rfl⟩
  · rw [if_neg (by rw [h2]; simp), if_pos (by rw [h4, h3]; simp), e1]
    exact hw.pre
  · have hc : (p.inBlock || isEmptyOrJustWhitespace p.st.text || (p.filter.directives && p.atProc)) = false := by
      rw [h1, h2]
      cases hd : p.filter.directives with
      | false => rfl
      | true => rw [h3 hd]; rfl
    rw [if_neg (by rw [hc]; simp)] at hn
    rw [if_neg (by rw [h2]; simp), if_neg (by rw [hc]; simp)]
    obtain ⟨hst, hamd, -⟩ := sec_state p hstate
    obtain ⟨ws1, hw1⟩ := hw.pre
    obtain ⟨ws2, hw2⟩ := hw1.step hamd hst.pos
    have hsec : p.sec.held = p.held := amended_held (frame_sec p).lines
    rcases e1 with e1 | ⟨ln, e1, hln⟩
    · have hsame : p'.held = p.held := by rw [← hsec]; unfold TParser.held; rw [e1]
      rw [e1]
      refine ⟨ws2, hw2.drop fun hkept => ?_⟩
      obtain ⟨k1, k2⟩ := hk.1 hkept
      rcases hhe with ⟨h, -⟩ | ⟨-, hs, -⟩ | ⟨-, -, -, e, -⟩
      · rw [hc] at h; cases h
      · rcases hs with hs | hs
        · rw [k1] at hs; cases hs
        · rw [k2] at hs; cases hs
      · rw [e] at hsame
        exact append_ne_self _ _ hsame
    · have hlt : ln.text ≠ [] := by rw [hln.text]; exact newLine_ne p h2
      have hmore : p'.held = p.held ++ [ln.bare] := by
        rw [← hsec]
        unfold TParser.held
        rw [e1, List.map_append, List.filter_append, List.map_singleton, List.filter_cons_of_pos (by
          show decide (ln.text ≠ []) = true
          simpa using hlt), List.filter_nil]
      rcases hhe with ⟨h, -⟩ | ⟨-, -, e⟩ | ⟨-, hs, hl, e, hp⟩
      · rw [hc] at h; cases h
      · rw [e] at hmore
        exact (append_ne_self _ _ hmore.symm).elim
      · rw [hp] at hn
        rw [e] at hmore
        obtain ⟨-, em⟩ := List.append_inj' hmore rfl
        simp only [List.cons.injEq, and_true] at em
        have told := made_told L p hs hn
        rw [em] at told
        have d1 := told.rest.label
        have d2 := told.rest.internal
        rw [e1]
        refine ⟨_, hw2.push (hk.2 ⟨hs, hl⟩) hlt ?_ hln.text (by rw [hln.sect]; exact hst.sect) (by rw [hln.source]; exact hst.pos)⟩
        have d1 : ln.isLabel = true ∧ p.seen.Defines ln.label ∨ ln.isLabel = false ∧ ln.label = [] ∧ ∀ x, ¬ p.seen.Defines x := d1
        have d2 : ln.isInternalLabel = true ↔ ln.isLabel = true ∧ Internal ln.label := d2
        constructor
        · rintro ⟨b1, b2⟩
          rcases d1 with ⟨-, d1⟩ | ⟨d1, -⟩
          · exact ⟨_, d1, (d2.1 b2).2⟩
          · rw [b1] at d1; cases d1
        · rintro ⟨a, b1, b2⟩
          rcases d1 with ⟨d0, d1⟩ | ⟨-, -, d1⟩
          · rw [b1.unique d1] at b2
            exact ⟨d0, d2.2 ⟨d0, b2⟩⟩
          · exact (d1 a b1).elim

/-- The lines after the input is read. -/
theorem readSettled (L : Locale) (f : Filter) (s : Str) :
    ∃ gs ws, (∀ i, i < (seen f s).length → (i ∈ gs ↔ i ∈ (scan f s).gaps)) ∧
      Settled f gs (seen f s) (seen f s) ((TParser.init f).readStream L s).lines ws := by
  obtain ⟨e, he, h, -, -⟩ := readStream_lines L f (fun done p => TextInv L f done p ∧ ReadInv (scanned f done) p ∧
      LabelInv (scanned f done).texts p ∧
      ∃ ws, Settled f (scanned f done).gaps (scanned f done).texts (scanned f done).texts p.lines ws)
    ⟨⟨fun c hc => absurd hc (by simp [TParser.init]), by simp [TParser.init], by simp [TParser.init],
      ⟨by simp [TParser.init], by simp [TParser.init], by simp [TParser.init], by simp [TParser.init]⟩, trivial, fun _ => rfl⟩,
     ⟨rfl, rfl, rfl, rfl, rfl, rfl, fun h => (h rfl).elim,
      ⟨⟨none, .start, rfl, rfl⟩, fun i name => ⟨fun h => by simp [TParser.init] at h, fun ⟨a, t, b, e, _⟩ => by
        simp [scanned] at e⟩, .inl ⟨rfl, fun t ht => by simp [scanned] at ht⟩, .inl ⟨rfl, fun t ht => by simp [scanned] at ht⟩⟩,
        [], rfl, by simp, .nil, by simp, fun za z zb e => by simp at e⟩,
     ⟨graphInv_nil, ⟨fun h => (by simp [TParser.init] at h), fun h => (h rfl).elim⟩⟩,
     [], rfl, ⟨.nil, by simp, by simp, by simp [scanned], by simp, fun xa x xb e => by simp at e, by simp [scanned]⟩, by simp, by simp, by simp⟩
    (fun done p l _ hf hb h hs => ⟨textInv_step L f done p l hf h.1 hs, by
      rw [scanned_snoc]
      exact readInv_step L f _ p l hf hb h.2.1 hs, by
      rw [scanned_snoc]
      exact labelInv_step L f _ p l hf hb h.2.1 h.2.2.1, by
      rw [scanned_snoc]
      exact settled_step L f _ p l hf hb h.2.1 h.2.2.1 h.2.2.2⟩) s
  rcases he with rfl | ⟨rfl, q, hq, hi', hr, -⟩
  · rw [List.append_nil] at h
    obtain ⟨ws, hw⟩ := h.2.2.2
    exact ⟨_, ws, fun _ _ => Iff.rfl, hw⟩
  · obtain ⟨hi, -, -, ws, h⟩ := h
    have hb : (scanned f (inputLines s)).carry.all (fun c => c = 32 || c = 9) = true := by
      rw [← hr.carry, ← white_scan, blanks_white]
      exact hi'.carry
    have e : (Scan.line f (scanned f (inputLines s)) []).texts = seen f s := by
      unfold Scan.line
      simp only [List.append_nil, hb, if_true]
      split <;> rfl
    have eg : ∀ i, i < (seen f s).length → (i ∈ (Scan.line f (scanned f (inputLines s)) []).gaps ↔ i ∈ (scan f s).gaps) := by
      intro i hi
      unfold Scan.line
      simp only [List.append_nil, hb, if_true]
      split
      · exact Iff.rfl
      · show i ∈ (scan f s).gaps ++ [(seen f s).length] ↔ _
        simp only [List.mem_append, List.mem_singleton]
        constructor
        · rintro (h | h)
          · exact h
          · omega
        · exact .inl
    rw [scanned_snoc, e] at h
    exact ⟨_, ws, eg, h⟩

omit [Recognizers] in
/-- What is stored tells what is in between. -/
theorem Stored.clear {gs' : List Nat} (h : Stored f gs ts xs) (hg : ∀ i, i < ts.length → (i ∈ gs ↔ i ∈ gs')) {k j : Nat} (hj : j < ts.length) :
    Clear gs xs k j ↔ Reaches f ts gs' k j := by
  constructor
  · rintro ⟨h1, h2⟩
    refine ⟨fun i hi hij hc => h1 i hi hij ((hg i (by omega)).2 hc), fun i t hi hij ht hk => ?_⟩
    obtain ⟨x, hx, hn, rfl⟩ := (h.kept i).2 ⟨t, ht, hk⟩
    exact (h.spec x hx hn t ht).1 (h2 x hx hn hi hij)
  · rintro ⟨h1, h2⟩
    refine ⟨fun i hi hij hc => h1 i hi hij ((hg i (by omega)).1 hc), fun x hx hn hi hij => ?_⟩
    obtain ⟨t, ht, hk⟩ := (h.kept x.2).1 ⟨x, hx, hn, rfl⟩
    exact (h.spec x hx hn t ht).2 (h2 x.2 t hi hij ht hk)

theorem finalSettled {L : Locale} {f : Filter} {s : Str} {p : TParser} (h : TextResult L f s p) : SrcState (seen f s) p ∧
    ∃ zs : List (TLine × Nat × Nat), zs.map (·.1) = p.lines.filter (fun l => l.text ≠ []) ∧ zs.Pairwise (fun a b => a.2.1 < b.2.1) ∧
      ∀ z ∈ zs, ∃ l0, z.1 = p.finishKept l0 ∧ Numbered (seen f s) l0 z.2.1 z.2.2 ∧ (∃ t, (seen f s)[z.2.1]? = some t ∧ t.Kept f) ∧
        (z.2.2 = z.2.1 ∨ GivesPosition f s z.2.1 z.2.2) ∧
        (l0.isLabel = true → ∀ j, GivesPosition f s z.2.1 j → j ≤ z.2.2) := by
  obtain ⟨o, n, v, v', h⟩ := h
  obtain ⟨us, ls, lines, fl, ub, rfl, h1, sub, h2, h3, -⟩ := outcome h
  obtain ⟨hs, -, -⟩ := readTags L f s
  obtain ⟨gs, ws, hgs, hw⟩ := readSettled L f s
  refine ⟨hs.congr rfl, ?_⟩
  generalize (TParser.init f).readStream L s = r at *
  -- the lines with a text
  obtain ⟨zr, hzr⟩ : ∃ zr, zr = ws.filter fun w => w.1.text ≠ [] := ⟨_, rfl⟩
  have hm : zr.map (·.1) = r.lines.filter fun l => l.text ≠ [] := by rw [hzr, ← hw.map, List.filter_map]; rfl
  have hpair : zr.Pairwise fun a b => a.2.1 < b.2.1 := by
    have ho := List.pairwise_map.1 hw.stored.order
    rw [hzr, List.pairwise_filter]
    exact ho.imp fun {a b} hab ha _ => hab (show a.1.text ≠ [] by simpa using ha)
  have hgood : ∀ z ∈ zr, Numbered (seen f s) z.1 z.2.1 z.2.2 ∧ (∃ t, (seen f s)[z.2.1]? = some t ∧ t.Kept f) ∧
      (z.2.2 = z.2.1 ∨ GivesPosition f s z.2.1 z.2.2) ∧ (z.1.isLabel = true → ∀ j, GivesPosition f s z.2.1 j → j ≤ z.2.2) := by
    intro z hz
    rw [hzr, List.mem_filter] at hz
    obtain ⟨hz, hn⟩ := hz
    have hn : z.1.text ≠ [] := by simpa using hn
    have hg := hw.good z hz hn
    refine ⟨hg, (hw.stored.kept _).1 ⟨tagOf z, List.mem_map_of_mem hz, hn, rfl⟩, ?_, ?_⟩
    · by_cases hmk : z.2.2 = z.2.1
      · exact .inl hmk
      · obtain ⟨a1, a2⟩ := hw.stay z hz hn hmk
        have := hg.le
        exact .inr ⟨by omega, a1, (hw.stored.clear hgs hg.lt).1 a2⟩
    · rintro hl j ⟨a1, ⟨t, a2, a3, a4⟩, a5⟩
      exact hw.next z hz hn hl j t a1 a2 a3 a4 ((hw.stored.clear hgs (List.getElem?_eq_some_iff.1 a2).1).2 a5)
  clear hw hgs hzr
  -- through `noUse`
  have e1 : (zr.map fun z => (z.1.noUse, z.2)).map (·.1) = (ls.filter fun l => l.text ≠ []).map TLine.noUse := by
    have : ∀ xs : List TLine, (xs.filter fun l => l.text ≠ []).map TLine.noUse = (xs.map TLine.noUse).filter fun l => l.text ≠ [] := by
      intro xs; rw [List.filter_map]; rfl
    rw [this, h1, ← this, ← hm, List.map_map, List.map_map]; rfl
  obtain ⟨zl, m1, m2⟩ := pull_map e1
  have gl : ∀ z ∈ zl, Numbered (seen f s) z.1 z.2.1 z.2.2 ∧ (∃ t, (seen f s)[z.2.1]? = some t ∧ t.Kept f) ∧
      (z.2.2 = z.2.1 ∨ GivesPosition f s z.2.1 z.2.2) ∧ (z.1.isLabel = true → ∀ j, GivesPosition f s z.2.1 j → j ≤ z.2.2) := by
    intro z hz
    have : (z.1.noUse, z.2) ∈ zl.map fun z => (z.1.noUse, z.2) := List.mem_map_of_mem hz
    rw [m2] at this
    obtain ⟨y, hy, e⟩ := List.mem_map.1 this
    obtain ⟨ea, eb⟩ := Prod.mk.inj e
    obtain ⟨⟨g1, g2, g3, g4, g5, g6, g7⟩, g8, g9, g10⟩ := hgood y hy
    rw [eb] at g1 g2 g3 g4 g5 g6 g7 g8 g9 g10
    have t1 : y.1.text = z.1.text := (congrArg TLine.text ea :)
    have t2 : y.1.sect = z.1.sect := (congrArg TLine.sect ea :)
    have t3 : y.1.isLabel = z.1.isLabel := (congrArg TLine.isLabel ea :)
    have t4 : y.1.source = z.1.source := (congrArg TLine.source ea :)
    exact ⟨⟨t1 ▸ g1, t2 ▸ g2, g3, g4, t3 ▸ g5, g6, t4 ▸ g7⟩, g8, g9, t3 ▸ g10⟩
  have pl : zl.Pairwise fun a b => a.2.1 < b.2.1 := by
    have : (zr.map fun z => (z.1.noUse, z.2)).Pairwise fun a b => a.2.1 < b.2.1 := List.pairwise_map.2 hpair
    rw [← m2] at this
    have := List.pairwise_map.1 this
    exact this
  -- the sublist
  have hsub : (sub.filter fun l => l.text ≠ []).Sublist (zl.map (·.1)) := by rw [m1]; exact h2.filter _
  obtain ⟨zs, hsub', e2⟩ := List.sublist_map_iff.1 hsub
  refine ⟨zs.map fun z => (r.finishKept z.1, z.2), ?_, ?_, ?_⟩
  · show _ = lines.filter _
    rw [h3, List.filter_map, List.map_map]
    have : sub.filter ((fun l : TLine => decide (l.text ≠ [])) ∘ r.finishKept) = sub.filter fun l => l.text ≠ [] :=
      List.filter_congr fun l _ => by simp [finishKept_text]
    rw [this, e2, List.map_map]; rfl
  · rw [List.pairwise_map]
    exact pl.sublist hsub'
  · intro z hz
    obtain ⟨y, hy, rfl⟩ := List.mem_map.1 hz
    exact ⟨y.1, rfl, gl y (hsub'.subset hy)⟩

end AsmParser
