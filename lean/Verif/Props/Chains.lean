/-
Property C74: which labels the filter `unused_labels` keeps.
-/
import Verif.Proofs.Chains
import Verif.Props.Graph

namespace AsmParser

attribute [local irreducible] Re.search Re.fullMatch

/-! ### Chains in terms of the text -/

theorem FunctionAt.defined {ts : List Seen} {l : Str} (h : FunctionAt ts l) : l = [] ∨ Defined ts l := by
  induction h with
  | start => exact .inl rfl
  | label h _ => exact .inr ⟨_, by simp, h⟩
  | keep _ _ ih => exact ih.imp_right fun ⟨t, ht, h⟩ => ⟨t, by simp [ht], h⟩

theorem LabelAt.defined {ts : List Seen} {l : Str} (h : LabelAt ts l) : l = [] ∨ Defined ts l := by
  induction h with
  | start => exact .inl rfl
  | label h => exact .inr ⟨_, by simp, h⟩
  | clear _ _ => exact .inl rfl
  | keep _ _ _ ih => exact ih.imp_right fun ⟨t, ht, h⟩ => ⟨t, by simp [ht], h⟩

theorem AddressAt.defined {ts : List Seen} {l : Str} (h : AddressAt ts l) : l = [] ∨ Defined ts l := by
  induction h with
  | start => exact .inl rfl
  | place h _ => exact .inr ⟨_, by simp, h⟩
  | assign _ _ => exact .inl rfl
  | next _ => exact .inl rfl
  | keep _ _ _ _ ih => exact ih.imp_right fun ⟨t, ht, h⟩ => ⟨t, by simp [ht], h⟩

theorem Defined.mono {ts us : List Seen} {l : Str} (h : Defined ts l) (hs : ∀ t ∈ ts, t ∈ us) : Defined us l := by
  obtain ⟨t, ht, h⟩ := h
  exact ⟨t, hs t ht, h⟩

theorem CodeUse.defined {ts : List Seen} {a b : Str} (h : CodeUse ts a b) : b = [] ∨ Defined ts b := by
  obtain ⟨x, t, y, rfl, ⟨-, -, h, -⟩ | ⟨-, h⟩⟩ := h
  · exact h.defined.imp_right fun h => h.mono fun t ht => by simp [ht]
  · refine h.defined.imp_right fun h => h.mono fun u hu => ?_
    simp only [List.mem_append, List.mem_singleton] at hu
    rcases hu with hu | rfl
    · simp [hu]
    · simp

theorem SameAddress.defined {ts : List Seen} {b a : Str} (h : SameAddress ts b a) : Defined ts a := by
  obtain ⟨hne, x, t, y, rfl, -, -, h, -⟩ := h
  exact (h.defined.resolve_left hne).mono fun t ht => by simp [ht]

theorem SameAddress.unique {ts : List Seen} {b a a' : Str} (h : SameAddress ts b a) (h' : SameAddress ts b a') : a = a' := by
  obtain ⟨hne, x, t, y, e, h1, h2, h3, h4⟩ := h
  obtain ⟨hne', x', t', y', e', h1', h2', h3', h4'⟩ := h'
  rw [e] at e'
  rcases List.append_eq_append_iff.1 e' with ⟨z, q1, q2⟩ | ⟨z, q1, q2⟩
  · cases z with
    | nil =>
      rw [List.append_nil] at q1
      subst q1
      exact h3.unique h3'
    | cons u z =>
      obtain ⟨rfl, q3⟩ := List.cons.inj q2
      have := h4 z t' y' q3 h1' h2'
      rw [q1] at h3'
      exact absurd (h3'.unique this) hne'
  · cases z with
    | nil =>
      rw [List.append_nil] at q1
      subst q1
      exact h3.unique h3'
    | cons u z =>
      obtain ⟨rfl, q3⟩ := List.cons.inj q2
      have := h4' z t y q3 h1 h2
      rw [q1] at h3
      exact absurd (h3.unique this) hne

theorem Chain.same {ts : List Seen} {v w : List Str} {a : Str} {c : List Str} (h : Chain ts v a c) (hw : ∀ x, x ∈ v ↔ x ∈ w) :
    Chain ts w a c := by
  induction h generalizing w with
  | exported h1 h2 => exact .exported (fun h => h1 ((hw _).2 h)) h2
  | outside h1 h2 h3 => exact .outside (fun h => h1 ((hw _).2 h)) h2 h3
  | step h1 h2 h3 h4 h5 _ ih => exact .step (fun h => h1 ((hw _).2 h)) h2 h3 h4 h5 (ih fun x => by simp [hw x])

section
variable [Recognizers]

theorem chain_text (L : Locale) (f : Filter) (s : Str) {v : List Str} {a : Str} {c : List Str} :
    GChain (references L f s) v a c ↔ Chain (seen f s) v a c := by
  constructor
  · intro h
    induction h with
    | exported h1 h2 => exact .exported h1 ((C65_exported L f s _).1 h2)
    | outside h1 h2 => exact .outside h1 ((C65_code L f s _ _).1 h2).1 ((C65_code L f s _ _).1 h2).2
    | step h1 h2 h3 h4 _ ih =>
      exact .step h1 (fun h => h2 ((C65_exported L f s _).2 h)) ((C65_code L f s _ _).1 h3).1 ((C65_code L f s _ _).1 h3).2 h4 ih
  · intro h
    induction h with
    | exported h1 h2 => exact .exported h1 ((C65_exported L f s _).2 h2)
    | outside h1 h2 h3 => exact .outside h1 ((C65_code L f s _ _).2 ⟨h2, h3⟩)
    | step h1 h2 h3 h4 h5 _ ih => exact .step h1 (fun h => h2 ((C65_exported L f s _).1 h)) ((C65_code L f s _ _).2 ⟨h3, h4⟩) h5 ih

theorem lookup_same (L : Locale) (f : Filter) (s : Str) {a b : Str} :
    (references L f s).aliased.lookup a = some b ↔ SameAddress (seen f s) a b := by
  constructor
  · intro h
    exact (C65_same_address L f s a b).1 (mem_of_lookup_str h)
  · intro h
    obtain ⟨c, hc⟩ : ∃ c, (references L f s).aliased.lookup a = some c := by
      have hm := (C65_same_address L f s a b).2 h
      cases hc : (references L f s).aliased.lookup a with
      | some c => exact ⟨c, rfl⟩
      | none => exact absurd (List.lookup_eq_none_iff.1 hc (a, b) hm) (by simp)
    rw [hc, h.unique ((C65_same_address L f s a c).1 (mem_of_lookup_str hc))]

theorem examined_text (L : Locale) (f : Filter) (s : Str) {v w names us as : List Str} (hw : ∀ x, x ∈ v ↔ x ∈ w)
    (h : GExamined (references L f s) v names us as) : Examined (seen f s) w names us as := by
  induction h generalizing w with
  | done => exact .done
  | @used v a c names us as h1 _ ih =>
    exact .used (((chain_text L f s).1 h1).same hw) (ih fun x => by simp [hw x])
  | @alias v a b c names us as h1 h2 h3 _ ih =>
    refine .alias (fun c hc => h1 c ((chain_text L f s).2 (hc.same fun x => (hw x).symm))) ((lookup_same L f s).1 h2)
      (((chain_text L f s).1 h3).same hw) (ih fun x => by simp [hw x])
  | @unused v a names us as h1 h2 _ ih =>
    exact .unused (fun c hc => h1 c ((chain_text L f s).2 (hc.same fun x => (hw x).symm)))
      (fun b hb c hc => h2 b ((lookup_same L f s).2 hb) c ((chain_text L f s).2 (hc.same fun x => (hw x).symm))) (ih hw)

theorem codeOnly_text (L : Locale) (f : Filter) (s : Str) (hd : ∀ a b, Defined (seen f s) a → ¬ DataUse (seen f s) a b) :
    CodeOnly (references L f s) (Defined (seen f s)) where
  closed a b _ h := ((C65_code L f s a b).1 h).2.defined
  data a ha := by
    rw [List.eq_nil_iff_forall_not_mem]
    exact fun b hb => hd a b ha ((C65_data L f s a b).1 (.inl (refsOf_refers hb)))
  weak := references_weak L f s
  keys := references_keys L f s
  alias a b h := ((lookup_same L f s).1 h).defined

omit [Recognizers] in
theorem Examined.sub {ts : List Seen} {v names us as : List Str} (h : Examined ts v names us as) : ∀ a ∈ us ++ as, a ∈ names := by
  induction h with
  | done => simp
  | used _ _ ih =>
    intro a ha
    rcases List.mem_cons.1 ha with rfl | ha
    · exact List.mem_cons_self
    · exact List.mem_cons_of_mem _ (ih a ha)
  | alias _ _ _ _ ih =>
    intro a ha
    simp only [List.mem_append, List.mem_cons] at ha
    rcases ha with ha | rfl | ha
    · exact List.mem_cons_of_mem _ (ih a (by simp [ha]))
    · exact List.mem_cons_self
    · exact List.mem_cons_of_mem _ (ih a (by simp [ha]))
  | unused _ _ _ ih => exact fun a ha => List.mem_cons_of_mem _ (ih a ha)

omit [Recognizers] in
theorem last_definition (ms : List TLine) (a : Str) (hex : ∃ m ∈ ms, m.isLabel = true ∧ m.label = a) :
    ∃ x l y, ms = x ++ l :: y ∧ l.isLabel = true ∧ l.label = a ∧ ∀ z ∈ y, z.isLabel = true → z.label ≠ a := by
  induction ms with
  | nil => obtain ⟨m, hm, -⟩ := hex; cases hm
  | cons w ms ih =>
    by_cases hrest : ∃ m ∈ ms, m.isLabel = true ∧ m.label = a
    · obtain ⟨x, l, y, e, h⟩ := ih hrest
      exact ⟨w :: x, l, y, by rw [e]; rfl, h⟩
    · obtain ⟨m, hm, h1, h2⟩ := hex
      rcases List.mem_cons.1 hm with rfl | hm
      · exact ⟨[], m, ms, rfl, h1, h2, fun z hz z1 z2 => hrest ⟨z, hz, z1, z2⟩⟩
      · exact absurd ⟨m, hm, h1, h2⟩ hrest

/-- A label that is marked is in the output. -/
theorem marked_label {L : Locale} {f : Filter} {s : Str} {p : TParser} {us : List Str} {ms : List TLine} {a : Str}
    (hdef : Defined (seen f s) a) (h4 : ms.map TLine.noUse = (heldLines L f s).map TLine.noUse)
    (h5 : ∀ x l y, ms = x ++ l :: y →
      (l.isUsed = true ↔ l.isLabel = true ∧ l.label ∈ us ∧ ∀ z ∈ y, z.isLabel = true → z.label ≠ l.label))
    (h6 : ∀ drop : List TLine → TLine → Bool, (∀ b l, drop b l = true ↔ Removed f b l) →
      p.lines.map TLine.core = (remaining drop [] ms).map TLine.core) (ha : a ∈ us) :
    ∃ l ∈ p.lines, l.isLabel = true ∧ l.label = a := by
  classical
  have h6 := h6 (fun b l => decide (Removed f b l)) fun b l => by simp
  have core : ∀ {us ws : List TLine}, us.map TLine.core = ws.map TLine.core → ∀ u ∈ us, ∃ w ∈ ws, u.core = w.core := by
    intro us ws e u hu
    have : u.core ∈ us.map TLine.core := List.mem_map_of_mem hu
    rw [e] at this
    obtain ⟨w, h1, h2⟩ := List.mem_map.1 this
    exact ⟨w, h1, h2.symm⟩
  have kept : ∀ (ls before rest : List TLine) (z : TLine), ¬ Removed f (before ++ ls) z →
      z ∈ remaining (fun b l => decide (Removed f b l)) before (ls ++ z :: rest) := by
    intro ls
    induction ls with
    | nil =>
      intro before rest z hz
      rw [List.append_nil] at hz
      rw [List.nil_append]
      unfold remaining
      rw [if_neg (by simpa using hz)]
      exact List.mem_cons_self
    | cons w ls ih =>
      intro before rest z hz
      have := ih (before ++ [w]) rest z (by simpa using hz)
      rw [List.cons_append]
      unfold remaining
      split
      · exact this
      · exact List.mem_cons_of_mem _ this
  -- the last definition of the label
  obtain ⟨l0, k1, k2, k3⟩ : ∃ l ∈ heldLines L f s, l.isLabel = true ∧ l.label = a := by
    obtain ⟨k, hk⟩ := (C65_defined L f s a).2 hdef
    exact key_defined (List.mem_map.2 ⟨_, hk, rfl⟩)
  have : ∃ x l y, ms = x ++ l :: y ∧ l.isLabel = true ∧ l.label = a ∧ ∀ z ∈ y, z.isLabel = true → z.label ≠ a := by
    have hex : ∃ m ∈ ms, m.isLabel = true ∧ m.label = a := by
      have : l0.noUse ∈ ms.map TLine.noUse := by rw [h4]; exact List.mem_map_of_mem k1
      obtain ⟨m, hm, em⟩ := List.mem_map.1 this
      exact ⟨m, hm, (congrArg TLine.isLabel em :).trans k2, (congrArg TLine.label em :).trans k3⟩
    exact last_definition ms a hex
  obtain ⟨x, m, y, e, m1, m2, m3⟩ := this
  have f1 := h5 x m y e
  have hused := f1.2 ⟨m1, by rw [m2]; exact ha, by rw [m2]; exact m3⟩
  have hk : ¬ Removed f ([] ++ x) m := by
    rw [List.nil_append]
    rintro (⟨-, h | h⟩ | ⟨-, -, -, h⟩)
    · rw [inUnused_snoc] at h
      rcases h with h | ⟨-, h⟩
      · have := h.1.2.1
        rw [hused] at this; cases this
      · exact absurd (h m1) (by rw [hused]; simp)
    · rcases h with h | h
      · have := h.1.2.1
        rw [hused] at this; cases this
      · have := h.2.1
        rw [hused] at this; cases this
    · have := (h x m [] (by simp) m1 (by simp)).2.1
      rw [hused] at this; cases this
  have hmem := kept x [] y m hk
  rw [← e] at hmem
  obtain ⟨l, hl, el⟩ := core h6.symm m hmem
  exact ⟨l, hl, (congrArg TLine.isLabel el.symm :).trans m1, (congrArg TLine.label el.symm :).trans m2⟩

/-- The labels of the output are those marked. -/
theorem marks_labels {L : Locale} {f : Filter} {s : Str} {p : TParser} (hu : f.unusedLabels = true) {us as : List Str} {ms : List TLine}
    (hsub : ∀ a ∈ us, Defined (seen f s) a) (h4 : ms.map TLine.noUse = (heldLines L f s).map TLine.noUse)
    (h5 : ∀ x l y, ms = x ++ l :: y →
      (l.isUsed = true ↔ l.isLabel = true ∧ l.label ∈ us ∧ ∀ z ∈ y, z.isLabel = true → z.label ≠ l.label) ∧
      (l.isUsedThroughAlias = true ↔ l.isLabel = true ∧ l.label ∈ as ∧ ∀ z ∈ y, z.isLabel = true → z.label ≠ l.label) ∧
      l.isUsedDataThroughAlias = false)
    (h6 : ∀ drop : List TLine → TLine → Bool, (∀ b l, drop b l = true ↔ Removed f b l) →
      p.lines.map TLine.core = (remaining drop [] ms).map TLine.core) (a : Str) :
    (∃ l ∈ p.lines, l.isLabel = true ∧ l.label = a) ↔ a ∈ us := by
  classical
  have h6' := h6
  have h6 := h6 (fun b l => decide (Removed f b l)) fun b l => by simp
  have core : ∀ {us ws : List TLine}, us.map TLine.core = ws.map TLine.core → ∀ u ∈ us, ∃ w ∈ ws, u.core = w.core := by
    intro us ws e u hu
    have : u.core ∈ us.map TLine.core := List.mem_map_of_mem hu
    rw [e] at this
    obtain ⟨w, h1, h2⟩ := List.mem_map.1 this
    exact ⟨w, h1, h2.symm⟩
  have sub : ∀ before ls, ∀ z ∈ remaining (fun b l => decide (Removed f b l)) before ls, ∃ x y, ls = x ++ z :: y ∧ ¬ Removed f (before ++ x) z := by
    intro before ls
    induction ls generalizing before with
    | nil => intro z hz; cases hz
    | cons w ls ih =>
      intro z hz
      unfold remaining at hz
      split at hz
      · obtain ⟨x, y, rfl, hn⟩ := ih _ z hz
        exact ⟨w :: x, y, rfl, by simpa using hn⟩
      · rename_i hw
        rcases List.mem_cons.1 hz with rfl | hz
        · exact ⟨[], ls, rfl, by simpa using hw⟩
        · obtain ⟨x, y, rfl, hn⟩ := ih _ z hz
          exact ⟨w :: x, y, rfl, by simpa using hn⟩
  constructor
  · rintro ⟨l, hl, hlab, rfl⟩
    obtain ⟨m, hm, em⟩ := core h6 l hl
    have e1 : m.isLabel = true := (congrArg TLine.isLabel em.symm :).trans hlab
    have e2 : m.label = l.label := (congrArg TLine.label em.symm :)
    obtain ⟨x, y, e, hn⟩ := sub _ _ _ hm
    obtain ⟨f1, f2, f3⟩ := h5 x m y e
    rw [List.nil_append] at hn
    have : m.isUsed = true := by
      cases hus : m.isUsed with
      | true => rfl
      | false =>
        exfalso
        refine hn (.inl ⟨hu, ?_⟩)
        cases hal : m.isUsedThroughAlias with
        | true => exact .inr (.inr ⟨e1, hus, hal⟩)
        | false =>
          cases hi : m.isInternalLabel with
          | true => exact .inr (.inl ⟨⟨e1, hus, hal, f3⟩, .inl hi⟩)
          | false =>
            cases ha : m.isInlineAsm with
            | true => exact .inr (.inl ⟨⟨e1, hus, hal, f3⟩, .inr ha⟩)
            | false => exact .inl ⟨x, m, [], by simp, ⟨⟨e1, hus, hal, f3⟩, hi, ha⟩, by simp⟩
    rw [← e2]
    exact (f1.1 this).2.1
  · exact fun ha => marked_label (hsub a ha) h4 (fun x l y e => (h5 x l y e).1) h6' ha

/-! ### C74 -/

/-- C74 (partial), for all inputs in which data refers to no label: the labels are examined one after the other (`Spec/Chains.lean`), in
some order and starting with the labels `v` left over from earlier parses on the same thread.  The lines removed are exactly those of
`Spec/Removal.lean`, where the marks are set on the last definition of each label.  Missing: data that refers to labels. -/
theorem C74_marks_partial (L : Locale) (f : Filter) (s : Str) (o : Order) (n : Nat) (v v' : List Str) (p : TParser)
    (h : (TParser.init f).fromStream L o n s v = some (p, v')) (hd : ∀ a b, Defined (seen f s) a → ¬ DataUse (seen f s) a b) :
    ∃ names used aliases : List Str, names.Nodup ∧ (∀ a, a ∈ names ↔ Defined (seen f s) a) ∧ Examined (seen f s) v names used aliases ∧
      ∃ ms : List TLine, ms.map TLine.noUse = (heldLines L f s).map TLine.noUse ∧
        (∀ x l y, ms = x ++ l :: y →
          (l.isUsed = true ↔ l.isLabel = true ∧ l.label ∈ used ∧ ∀ z ∈ y, z.isLabel = true → z.label ≠ l.label) ∧
          (l.isUsedThroughAlias = true ↔ l.isLabel = true ∧ l.label ∈ aliases ∧ ∀ z ∈ y, z.isLabel = true → z.label ≠ l.label) ∧
          l.isUsedDataThroughAlias = false) ∧
        ∀ drop : List TLine → TLine → Bool, (∀ b l, drop b l = true ↔ Removed f b l) →
          p.lines.map TLine.core = (remaining drop [] ms).map TLine.core := by
  have hkeys : ∀ a, a ∈ ((TParser.init f).readStream L s).labelsDefined.map (·.1) ↔ Defined (seen f s) a := by
    intro a
    rw [show Defined (seen f s) a ↔ _ from (C65_defined L f s a).symm, List.mem_map]
    exact ⟨fun ⟨⟨x, k⟩, h1, h2⟩ => ⟨k, h2 ▸ h1⟩, fun ⟨k, h⟩ => ⟨_, h, rfl⟩⟩
  obtain ⟨e0, -, hinv⟩ := textInv L f s
  obtain ⟨names, us, as, ms, h1, h2, -, h4, h5, h6⟩ := result_exact h (codeOnly_text L f s hd) fun a ha => (hkeys a).1 ha
  refine ⟨names, us, as, h1.nodup_iff.2 hinv.table.nodup, fun a => h1.mem_iff.trans (hkeys a), examined_text L f s (fun _ => Iff.rfl) h2,
    ms, h4, h5, fun drop hd => ?_⟩
  rw [h6 drop hd, List.map_map]
  exact List.map_congr_left fun l _ => finishKept_core _ l

/-- C74 (partial): the labels in the output are exactly those found in use. -/
theorem C74_labels_partial (L : Locale) (f : Filter) (s : Str) (o : Order) (n : Nat) (v v' : List Str) (p : TParser)
    (h : (TParser.init f).fromStream L o n s v = some (p, v')) (hu : f.unusedLabels = true)
    (hd : ∀ a b, Defined (seen f s) a → ¬ DataUse (seen f s) a b) :
    ∃ names used aliases : List Str, names.Nodup ∧ (∀ a, a ∈ names ↔ Defined (seen f s) a) ∧ Examined (seen f s) v names used aliases ∧
      ∀ a, (∃ l ∈ p.lines, l.isLabel = true ∧ l.label = a) ↔ a ∈ used := by
  obtain ⟨names, us, as, h1, h2, h3, ms, h4, h5, h6⟩ := C74_marks_partial L f s o n v v' p h hd
  exact ⟨names, us, as, h1, h2, h3, marks_labels hu (fun a ha => (h2 a).1 (h3.sub a (by simp [ha]))) h4 h5 h6⟩

/-- C74 (partial): on a fresh thread the first chain is free: if there is a chain for some label, then some label is found in use, by
itself or as an alias. -/
theorem C74_first_partial (L : Locale) (f : Filter) (s : Str) (o : Order) (n : Nat) (v' : List Str) (p : TParser)
    (h : (TParser.init f).fromStream L o n s [] = some (p, v')) (hd : ∀ a b, Defined (seen f s) a → ¬ DataUse (seen f s) a b)
    (a : Str) (c : List Str) (ha : Defined (seen f s) a) (hc : Chain (seen f s) [] a c) :
    ∃ ms : List TLine, ms.map TLine.noUse = (heldLines L f s).map TLine.noUse ∧
      (∃ l ∈ ms, l.isUsed = true ∨ l.isUsedThroughAlias = true) ∧
      ∀ drop : List TLine → TLine → Bool, (∀ b l, drop b l = true ↔ Removed f b l) →
        p.lines.map TLine.core = (remaining drop [] ms).map TLine.core := by
  obtain ⟨names, us, as, h1, h2, h3, ms, h4, h5, h6⟩ := C74_marks_partial L f s o n [] v' p h hd
  refine ⟨ms, h4, ?_, h6⟩
  have hmem := (h2 a).2 ha
  have hsub := h3.sub
  have : ∃ b, b ∈ us ∨ b ∈ as := by
    clear h1 h2 h4 h5 h6 h hsub
    generalize hv : ([] : List Str) = v at h3
    induction h3 with
    | done => cases hmem
    | @used v b => exact ⟨b, by simp⟩
    | @alias v b => exact ⟨b, by simp⟩
    | unused g1 _ _ ih =>
      subst hv
      rcases List.mem_cons.1 hmem with rfl | hmem
      · exact absurd hc (g1 _)
      · exact ih hmem rfl
  obtain ⟨b, hb⟩ := this
  obtain ⟨k, hk⟩ := (C65_defined L f s b).2 ((h2 b).1 (hsub b (by simpa using hb)))
  obtain ⟨l0, k1, k2, k3⟩ := key_defined (List.mem_map.2 ⟨_, hk, rfl⟩)
  have : l0.noUse ∈ ms.map TLine.noUse := by rw [h4]; exact List.mem_map_of_mem k1
  obtain ⟨m, hm, em⟩ := List.mem_map.1 this
  obtain ⟨x, l, y, e, e1, e2, e3⟩ := last_definition ms b
    ⟨m, hm, (congrArg TLine.isLabel em :).trans k2, (congrArg TLine.label em :).trans k3⟩
  obtain ⟨f1, f2, -⟩ := h5 x l y e
  refine ⟨l, by rw [e]; simp, hb.imp (fun hb => f1.2 ⟨e1, e2 ▸ hb, ?_⟩) fun hb => f2.2 ⟨e1, e2 ▸ hb, ?_⟩⟩ <;> rw [e2] <;> exact e3

end

/-- In `sampleCall` data refers to nothing, and `.L2` takes its chain of two labels, so that nothing is left for `main`. -/
example : (∀ a b, ¬ DataUse (seen { unusedLabels := true } sampleCall) a b) ∧
    Examined (seen { unusedLabels := true } sampleCall) [] [b! ".L2", b! "main"] [b! ".L2"] [] := by
  have e : references Locale.utf8 { unusedLabels := true } sampleCall =
      { usercode := [b! "main"], used := [(b! "main", [[]]), (b! ".L2", [b! "main"])] } := by decide +kernel
  have h : CodeRef (references Locale.utf8 { unusedLabels := true } sampleCall) b! ".L2" b! "main" := ⟨[b! "main"], by rw [e]; simp, by simp⟩
  have c : Chain (seen { unusedLabels := true } sampleCall) [] b! ".L2" [b! ".L2", b! "main"] :=
    (chain_text Locale.utf8 _ _).1 (.step (by simp) (by rw [e]; decide) h (by simp) (.exported (by decide) (by rw [e]; simp)))
  refine ⟨fun a b hab => ?_, .used c (.unused (fun c hc => ?_) (fun b hb => ?_) .done)⟩
  · rcases (C65_data Locale.utf8 _ _ _ _).2 hab with ⟨rs, h1, -⟩ | ⟨rs, h1, -⟩ <;> rw [e] at h1 <;> cases h1
  · cases hc with
    | exported h _ => exact absurd h (by decide)
    | outside h _ _ => exact absurd h (by decide)
    | step h _ _ _ _ _ => exact absurd h (by decide)
  · have := (C65_same_address Locale.utf8 _ _ _ _).2 hb
    rw [e] at this
    cases this

/-- C74 is about chains that are taken away from other labels.  An exported function with a second label at its address is lost
together with its code, if the second label is examined first: it takes the function for itself, as an alias only. -/
theorem C74_violation : ∃ p, TextResult Locale.utf8 { unusedLabels := true } b! ".globl f\nf:\ng:\n ret\n" p ∧
    p.outputText = b! ".globl f\n" := by
  let r := (TParser.init { unusedLabels := true }).fromStream Locale.utf8 Order.rev 30 b! ".globl f\nf:\ng:\n ret\n" []
  exact ⟨(r.get (by decide +kernel)).1, ⟨Order.rev, 30, [], (r.get (by decide +kernel)).2, (Option.some_get _).symm⟩, by decide +kernel⟩

end AsmParser
