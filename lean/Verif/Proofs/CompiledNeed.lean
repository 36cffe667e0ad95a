/-
Helper lemmas: the labels in use in the assembly code that a compiler writes.
-/
import Verif.Proofs.CompiledUse

namespace AsmParser

attribute [local irreducible] Re.search Re.fullMatch

/-! ### Places -/

theorem functionAt_of {ts : List Seen} {b : Str} (hf : FunctionAt ts b) : ∀ ys : List CLine, ys.map CLine.seen = ts → (∀ x ∈ ys, x.Wf) →
    b = [] ∧ NoFunction ys ∨ ∃ before nt inside, ys = before ++ .label b nt :: inside ∧ ¬ Internal b ∧ NoFunction inside := by
  induction hf with
  | start =>
    intro ys e _
    rw [List.map_eq_nil_iff.1 e]
    exact .inl ⟨rfl, fun a _ ha => by cases ha⟩
  | label hd hi =>
    intro ys e h
    obtain ⟨zs, x, rfl, e1, rfl⟩ := map_snoc e
    obtain ⟨nt, hd⟩ := (defines_iff (h x (by simp))).1 hd
    exact .inr ⟨zs, nt, [], by rw [hd], hi, fun a _ ha => by cases ha⟩
  | keep hk _ ih =>
    intro ys e h
    obtain ⟨zs, x, rfl, e1, rfl⟩ := map_snoc e
    have hx : ∀ a nt, .label a nt = x → Internal a := fun a nt ha => hk a ((defines_iff (h x (by simp))).2 ⟨nt, ha.symm⟩)
    rcases ih zs e1 fun x hx => h x (by simp [hx]) with ⟨h1, h2⟩ | ⟨before, nt, inside, rfl, h1, h2⟩
    · refine .inl ⟨h1, fun a nt ha => ?_⟩
      rcases List.mem_append.1 ha with ha | ha
      · exact h2 a _ ha
      · exact hx a _ (by simpa using ha)
    · refine .inr ⟨before, nt, inside ++ [x], by simp, h1, fun a nt ha => ?_⟩
      rcases List.mem_append.1 ha with ha | ha
      · exact h2 a _ ha
      · exact hx a _ (by simpa using ha)

theorem labelAt_of {ts : List Seen} {b : Str} (hf : LabelAt ts b) : ∀ ys : List CLine, ys.map CLine.seen = ts → (∀ x ∈ ys, x.Wf) →
    b = [] ∨ ∃ before nt inside, ys = before ++ .label b nt :: inside ∧ Unbroken inside := by
  induction hf with
  | start => exact fun _ _ _ => .inl rfl
  | clear => exact fun _ _ _ => .inl rfl
  | label hd =>
    intro ys e h
    obtain ⟨zs, x, rfl, e1, rfl⟩ := map_snoc e
    obtain ⟨nt, hd⟩ := (defines_iff (h x (by simp))).1 hd
    exact .inr ⟨zs, nt, [], by rw [hd], fun a ha => by cases ha⟩
  | keep hk hcl _ ih =>
    intro ys e h
    obtain ⟨zs, x, rfl, e1, rfl⟩ := map_snoc e
    have hx : x.isLabel = false ∧ x.isBlock = false := by
      have hw := h x (by simp)
      constructor
      · cases x with
        | label a nt => exact (hk a (label_defines hw)).elim
        | _ => rfl
      · cases hb : x.isBlock with
        | false => rfl
        | true => exact (hcl (.inl ((seen_ends hw).2 hb))).elim
    rcases ih zs e1 fun x hx => h x (by simp [hx]) with h1 | ⟨before, nt, inside, rfl, h1⟩
    · exact .inl h1
    · refine .inr ⟨before, nt, inside ++ [x], by simp, fun y hy => ?_⟩
      rcases List.mem_append.1 hy with hy | hy
      · exact h1 y hy
      · rw [List.mem_singleton.1 hy]; exact hx

theorem addressAt_of {ts : List Seen} {b : Str} (hf : AddressAt ts b) : ∀ ys : List CLine, ys.map CLine.seen = ts → (∀ x ∈ ys, x.Wf) →
    b = [] ∨ ∃ before nt between, ys = before ++ .label b nt :: between ∧ ∀ x ∈ between, x.quiet = true := by
  induction hf with
  | start => exact fun _ _ _ => .inl rfl
  | assign => exact fun _ _ _ => .inl rfl
  | next => exact fun _ _ _ => .inl rfl
  | place hd =>
    intro ys e h
    obtain ⟨zs, x, rfl, e1, rfl⟩ := map_snoc e
    obtain ⟨nt, hd⟩ := (defines_iff (h x (by simp))).1 hd
    exact .inr ⟨zs, nt, [], by rw [hd], fun a ha => by cases ha⟩
  | keep hk hi hd _ ih =>
    intro ys e h
    obtain ⟨zs, x, rfl, e1, rfl⟩ := map_snoc e
    have hw := h x (by simp)
    have hx : x.quiet = true := by
      cases x with
      | label a nt => exact (hk a (label_defines hw)).elim
      | data kw sep args => exact (hd ((data_seen hw).2 rfl)).elim
      | instr op sep args =>
        by_cases hq : args.head? = some c! '='
        · simp [CLine.quiet, hq]
        · exact (hi (instr_seen hw hq)).elim
      | _ => rfl
    rcases ih zs e1 fun x hx => h x (by simp [hx]) with h1 | ⟨before, nt, inside, rfl, h1⟩
    · exact .inl h1
    · refine .inr ⟨before, nt, inside ++ [x], by simp, fun y hy => ?_⟩
      rcases List.mem_append.1 hy with hy | hy
      · exact h1 y hy
      · rw [List.mem_singleton.1 hy]; exact hx

/-! ### With and without directives -/

/-- The lines are the same but for directives. -/
def CodeEq (xs ys : List CLine) : Prop := ys.filter (fun x => !x.isDirective) = xs.filter fun x => !x.isDirective

theorem CodeEq.mem {xs ys : List CLine} (h : CodeEq xs ys) {x : CLine} (hx : x.isDirective = false) : x ∈ ys ↔ x ∈ xs := by
  have h1 : ∀ zs : List CLine, x ∈ zs ↔ x ∈ zs.filter fun x => !x.isDirective := fun zs => by simp [hx]
  rw [h1 ys, h1 xs, show ys.filter _ = _ from h]

theorem CodeEq.split {xs before after : List CLine} {x : CLine} (h : CodeEq xs (before ++ x :: after)) (hx : x.isDirective = false) :
    ∃ before' after', xs = before' ++ x :: after' ∧ CodeEq before' before ∧ CodeEq after' after := by
  unfold CodeEq at h
  rw [List.filter_append, List.filter_cons_of_pos (by simp [hx])] at h
  obtain ⟨l1, l2, rfl, h1, h2⟩ := List.filter_eq_append_iff.1 h.symm
  obtain ⟨m1, m2, rfl, h3, h4, h5⟩ := List.filter_eq_cons_iff.1 h2
  refine ⟨l1 ++ m1, m2, by simp, ?_, h5.symm⟩
  have : m1.filter (fun x => !x.isDirective) = [] := List.filter_eq_nil_iff.2 h3
  show _ = _
  rw [List.filter_append, this, List.append_nil, h1]

theorem CodeEq.noFunction {xs ys : List CLine} (h : CodeEq xs ys) (hn : NoFunction ys) : NoFunction xs :=
  fun a nt ha => hn a nt ((h.mem rfl).2 ha)

theorem CodeEq.unbroken {xs ys : List CLine} (h : CodeEq xs ys) (hn : Unbroken ys) : Unbroken xs := by
  intro x hx
  cases hd : x.isDirective with
  | false => exact hn x ((h.mem hd).2 hx)
  | true => cases x <;> first | exact ⟨rfl, rfl⟩ | cases hd

theorem moves_filter (xs : List CLine) (pos : Option (Nat × Nat × Nat)) :
    (xs.filter fun x => !x.isDirective).foldl CLine.moves pos = xs.foldl CLine.moves pos := by
  induction xs generalizing pos with
  | nil => rfl
  | cons x xs ih =>
    cases hd : x.isDirective with
    | false => rw [List.filter_cons_of_pos (by simp [hd]), List.foldl_cons, List.foldl_cons, ih]
    | true =>
      rw [List.filter_cons_of_neg (by simp [hd]), List.foldl_cons, ih]
      cases x <;> first | rfl | cases hd

theorem CodeEq.placed {xs ys : List CLine} (h : CodeEq xs ys) (hn : Located ys) : Located xs := by
  unfold Located at *
  rw [← moves_filter, ← show ys.filter _ = _ from h, moves_filter]
  exact hn

theorem CodeEq.quiet {xs ys : List CLine} (h : CodeEq xs ys) (hn : ∀ x ∈ ys, x.quiet = true) : ∀ x ∈ xs, x.quiet = true := by
  intro x hx
  cases hd : x.isDirective with
  | false => exact hn x ((h.mem hd).2 hx)
  | true => cases x <;> first | rfl | cases hd

theorem runs_not {x : CLine} (h : x.runs = true) : x.isDirective = false := by cases x <;> first | rfl | cases h
theorem isData_not {x : CLine} (h : x.isData = true) : x.isDirective = false := by cases x <;> first | rfl | cases h

/-! ### References -/

theorem map_split {ys : List CLine} {before after : List Seen} {t : Seen} (e : ys.map CLine.seen = before ++ t :: after) :
    ∃ b x c, ys = b ++ x :: c ∧ b.map CLine.seen = before ∧ x.seen = t ∧ c.map CLine.seen = after := by
  obtain ⟨b, l, rfl, e1, e2⟩ := List.map_eq_append_iff.1 e
  obtain ⟨x, c, rfl, e3, e4⟩ := List.map_eq_cons_iff.1 e2
  exact ⟨b, x, c, rfl, e1, e3, e4⟩

theorem exports_of {x : CLine} {a : Str} (h : x.seen.Exports a) : DeclaresSymbol symbolDirectives x.text a := by
  obtain ⟨-, -, -, bs, kw, bs', r, h1, h2, h3⟩ := h
  exact ⟨bs, kw, bs', r, h1, by unfold symbolDirectives; exact List.mem_append_right _ h2, h3⟩

theorem declares_of {x : CLine} {a : Str} (h : x.seen.Declares a) : DeclaresSymbol symbolDirectives x.text a := by
  rcases h with h | ⟨-, -, -, ⟨bs, kw, bs', r, h1, h2, h3⟩ | ⟨⟨bs, kw, bs', r, h1, h2, h3⟩, -⟩⟩
  · exact exports_of h
  · exact ⟨bs, kw, bs', r, h1, by rw [List.mem_singleton.1 h2]; decide, h3⟩
  · exact ⟨bs, kw, bs', r, h1, by rw [List.mem_singleton.1 h2]; decide, h3⟩

theorem exports_directive {x : CLine} {a : Str} (hx : x.Wf) (hd : x.isDirective = true) (h : DeclaresSymbol globalDirectives x.text a) :
    x.seen.Exports a := by
  cases x with
  | directive kw sep args => exact ⟨rfl, rfl, (plain_iff hx rfl).2 rfl, h⟩
  | _ => cases hd

section
variable {xs ys : List CLine} (hy : ∀ y ∈ ys, y.Wf) (sub : ys.Sublist xs) (same : CodeEq xs ys)
include hy sub same

theorem code_mentions {a b : Str} (h : CodeUse (ys.map CLine.seen) a b) (hb : b ≠ []) : CodeMentions xs a b ∨ ∃ x ∈ ys, x.seen.Declares a := by
  obtain ⟨before, t, after, e, h⟩ := h
  obtain ⟨bs, x, cs, rfl, rfl, rfl, rfl⟩ := map_split e
  rcases h with ⟨hi, ha, hf, -⟩ | ⟨hd, -⟩
  · have hr := instr_runs (hy x (by simp)) hi
    rcases functionAt_of hf bs rfl (fun z hz => hy z (by simp [hz])) with ⟨hn, -⟩ | ⟨before, nt, inside, rfl, h1, h2⟩
    · exact (hb hn).elim
    · obtain ⟨b', a', rfl, s1, -⟩ := same.split (runs_not hr)
      obtain ⟨b1, b2, rfl, s2, s3⟩ := s1.split rfl
      exact .inl ⟨b1, nt, b2, x, a', rfl, hr, ha, h1, s3.noFunction h2⟩
  · exact .inr ⟨x, by simp, hd⟩

theorem code_needed {a b : Str} (h : CodeUse (ys.map CLine.seen) a b) (hb : b ≠ [] → Needed xs b) : Needed xs a := by
  obtain ⟨before, t, after, e, h⟩ := h
  obtain ⟨bs, x, cs, rfl, rfl, rfl, rfl⟩ := map_split e
  rcases h with ⟨hi, ha, hf, -⟩ | ⟨hd, -⟩
  · have hr := instr_runs (hy x (by simp)) hi
    rcases functionAt_of hf bs rfl (fun z hz => hy z (by simp [hz])) with ⟨-, hn⟩ | ⟨before, nt, inside, rfl, h1, h2⟩
    · obtain ⟨b', a', rfl, s1, -⟩ := same.split (runs_not hr)
      exact .outside rfl hr ha (s1.noFunction hn)
    · have hne : b ≠ [] := (hy (.label b nt) (by simp)).usual.1
      obtain ⟨b', a', rfl, s1, -⟩ := same.split (runs_not hr)
      obtain ⟨b1, b2, rfl, s2, s3⟩ := s1.split rfl
      exact .code rfl hr ha h1 (s3.noFunction h2) (hb hne)
  · exact .declared (sub.subset (by simp)) (declares_of hd)

theorem data_mentions {a b : Str} (h : DataUse (ys.map CLine.seen) a b) (hb : b ≠ []) : DataMentions xs a b := by
  obtain ⟨before, t, after, e, hd, ha, h⟩ := h
  obtain ⟨bs, x, cs, rfl, rfl, rfl, rfl⟩ := map_split e
  have hr := (data_seen (hy x (by simp))).1 hd
  have key : ∃ before nt inside, bs = before ++ .label b nt :: inside ∧ (Unbroken inside ∨ ¬ Internal b ∧ NoFunction inside ∧ Located bs) := by
    rcases h with h | ⟨h, i, n, c, hpos⟩
    · rcases labelAt_of h (bs ++ [x]) (by simp) (fun z hz => hy z (by
        rcases List.mem_append.1 hz with hz | hz
        · simp [hz]
        · simp [List.mem_singleton.1 hz])) with h | ⟨before, nt, inside, e, h⟩
      · exact (hb h).elim
      · rcases List.eq_nil_or_concat inside with rfl | ⟨i', y, rfl⟩
        · have := (List.append_inj' e rfl).2
          simp only [List.cons.injEq, and_true] at this
          rw [this] at hr; cases hr
        · have := List.append_inj' (show bs ++ [x] = (before ++ .label b nt :: i') ++ [y] by rw [e]; simp) rfl
          exact ⟨before, nt, i', this.1, .inl fun y hy => h y (by simp [hy])⟩
    · rcases functionAt_of h bs rfl (fun z hz => hy z (by simp [hz])) with ⟨h, -⟩ | ⟨before, nt, inside, e, h1, h2⟩
      · exact (hb h).elim
      · refine ⟨before, nt, inside, e, .inr ⟨h1, h2, ?_⟩⟩
        have hp := positionAt_of hpos (bs ++ [x]) (by simp) fun z hz => hy z (by
          rcases List.mem_append.1 hz with hz | hz
          · simp [hz]
          · simp [List.mem_singleton.1 hz])
        have hmv : x.moves (bs.foldl CLine.moves none) = bs.foldl CLine.moves none := by cases x <;> first | rfl | cases hr
        rw [List.foldl_append, List.foldl_cons, List.foldl_nil, hmv] at hp
        intro hnone
        rw [hnone] at hp
        cases hp
  obtain ⟨before, nt, inside, rfl, hk⟩ := key
  obtain ⟨b', a', rfl, s1, -⟩ := same.split (isData_not hr)
  have hpl := s1.placed
  obtain ⟨b1, b2, rfl, s2, s3⟩ := s1.split rfl
  exact ⟨b1, nt, b2, x, a', by simp, hr, ha, hk.imp s3.unbroken fun h => ⟨h.1, s3.noFunction h.2.1, hpl h.2.2⟩⟩

theorem right_behind {a b : Str} (h : SameAddress (ys.map CLine.seen) a b) : RightBehind xs a b := by
  obtain ⟨hb, before, t, after, e, hd, -, ha, -⟩ := h
  obtain ⟨bs, x, cs, rfl, rfl, rfl, rfl⟩ := map_split e
  obtain ⟨nt', rfl⟩ := (defines_iff (hy x (by simp))).1 hd
  rcases addressAt_of ha bs rfl (fun z hz => hy z (by simp [hz])) with h | ⟨before, nt, between, rfl, h⟩
  · exact (hb h).elim
  · obtain ⟨b', a', rfl, s1, -⟩ := same.split rfl
    obtain ⟨b1, b2, rfl, s2, s3⟩ := s1.split rfl
    exact ⟨b1, nt, b2, nt', a', by simp, s3.quiet h⟩

theorem needed_of {a : Str} (h : InUse (ys.map CLine.seen) a) : a ≠ [] ∧ Needed xs a := by
  have label : ∀ {t a}, t ∈ ys.map CLine.seen → t.Defines a → a ≠ [] := by
    intro t a ht hd
    obtain ⟨y, hm, rfl⟩ := List.mem_map.1 ht
    obtain ⟨nt, hd⟩ := (defines_iff (hy y hm)).1 hd
    have := hy y hm
    rw [hd] at this
    exact this.usual.1
  induction h with
  | exported ht he =>
    obtain ⟨y, hm, rfl⟩ := List.mem_map.1 ht
    have hd := exports_of he
    refine ⟨?_, .declared (sub.subset hm) hd⟩
    obtain ⟨_, _, _, _, -, -, -, ⟨c, t, rfl, -⟩, -⟩ := hd
    simp
  | outside ht hd hc => exact ⟨label ht hd, code_needed hy sub same hc fun h => (h rfl).elim⟩
  | code ht hd hc _ ih => exact ⟨label ht hd, code_needed hy sub same hc fun _ => ih.2⟩
  | data hd _ ih =>
    obtain ⟨before, nt, inside, x, after, e, h1, h2, h3⟩ := data_mentions hy sub same hd ih.1
    exact ⟨mentioned_nonempty h2, .data e h1 h2 h3 ih.2⟩

theorem reasons_of {x : Found} (h : x.Sound (ys.map CLine.seen)) : x.Reasons xs where
  used a ha := (needed_of hy sub same (h.used a ha)).2
  aliases a ha := by
    obtain ⟨b, h1, h2⟩ := h.aliases a ha
    exact ⟨b, right_behind hy sub same h1, (needed_of hy sub same h2).2⟩
  dataAliases a ha := by
    obtain ⟨r, b, h1, h2, h3⟩ := h.dataAliases a ha
    have hr : r ≠ [] := by
      obtain ⟨-, before, t, after, e, hd, -⟩ := h2
      obtain ⟨bs, x, cs, rfl, rfl, rfl, rfl⟩ := map_split e
      have hx := hy x (by simp)
      obtain ⟨nt, hd⟩ := (defines_iff hx).1 hd
      rw [hd] at hx
      exact hx.usual.1
    exact ⟨r, b, data_mentions hy sub same h1 hr, right_behind hy sub same h2, (needed_of hy sub same h3).2⟩

end

end AsmParser
