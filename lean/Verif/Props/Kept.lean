/-
Property C75: which exported functions are safe from the filter `unused_labels`.
-/
import Verif.Proofs.Spared
import Verif.Props.Chains
import Verif.Props.Removal
import Verif.Props.Usage

namespace AsmParser

attribute [local irreducible] Re.search Re.fullMatch

/-! ### Names are not empty -/

theorem nameWords_nonempty (s : Str) : ∀ (sg cur : Str), ∀ w ∈ nameWords sg cur s, w.2 ≠ [] := by
  induction s with
  | nil =>
    intro sg cur w hw
    unfold nameWords at hw
    split at hw
    · cases hw
    · rename_i h
      rw [List.mem_singleton.1 hw]
      exact h
  | cons c s ih =>
    intro sg cur w hw
    unfold nameWords at hw
    split at hw
    · exact ih _ _ w hw
    · rcases List.mem_append.1 hw with hw | hw
      · split at hw
        · cases hw
        · rename_i h
          rw [List.mem_singleton.1 hw]
          exact h
      · split at hw <;> exact ih _ _ w hw

theorem mentioned_nonempty {line a : Str} (h : a ∈ mentioned line) : a ≠ [] := by
  unfold mentioned at h
  simp only at h
  split at h
  · cases h
  · obtain ⟨w, hw, ha⟩ := List.mem_flatMap.1 h
    have := nameWords_nonempty _ _ _ w hw
    split at ha
    · rw [List.mem_singleton.1 ha]; exact this
    · simp only [List.mem_cons, List.not_mem_nil, or_false] at ha
      rcases ha with rfl | rfl
      · exact this
      · exact fun e => this (List.append_eq_nil_iff.1 e).2

theorem DataUse.defined {ts : List Seen} {a b : Str} (h : DataUse ts a b) : b = [] ∨ Defined ts b := by
  obtain ⟨x, t, y, rfl, -, -, h | ⟨h, -⟩⟩ := h
  · refine h.defined.imp_right fun h => h.mono fun u hu => ?_
    simp only [List.mem_append, List.mem_singleton] at hu
    rcases hu with hu | rfl
    · simp [hu]
    · simp
  · exact h.defined.imp_right fun h => h.mono fun t ht => by simp [ht]

theorem DataUse.nonempty {ts : List Seen} {a b : Str} (h : DataUse ts a b) : a ≠ [] := by
  obtain ⟨x, t, y, rfl, -, h, -⟩ := h
  exact mentioned_nonempty h

/-! ### Chains -/

theorem Chain.avoids {ts : List Seen} {v : List Str} {a b : Str} {c : List Str} (h : Chain ts v a c) (hne : a ≠ b)
    (hb : ∀ g, Defined ts g → CodeUse ts g b → g = b ∨ Exported ts g) : b ∉ c := by
  induction h with
  | exported => simpa using fun e => hne e.symm
  | outside => simpa using fun e => hne e.symm
  | @step v a d c _ h2 h3 h4 _ _ ih =>
    have hd : d ≠ b := by
      rintro rfl
      rcases hb a h3 h4 with e | e
      · exact hne e
      · exact h2 e
    simp only [List.mem_cons, not_or]
    exact ⟨fun e => hne e.symm, ih hd⟩

/-- An exported label is found in use when its turn comes, unless it has been taken. -/
theorem Examined.finds {ts : List Seen} {v names us as : List Str} (h : Examined ts v names us as) {a : Str} (he : Exported ts a)
    (hs : ∀ g, ¬ SameAddress ts g a) (hb : ∀ g, Defined ts g → CodeUse ts g a → g = a ∨ Exported ts g)
    (hv : a ∉ v) (hn : a ∈ names) : a ∈ us := by
  induction h with
  | done => cases hn
  | @used v b c names us as h1 _ ih =>
    by_cases e : b = a
    · simp [e]
    · refine List.mem_cons_of_mem _ (ih ?_ ?_)
      · simp only [List.mem_append, not_or]
        exact ⟨h1.avoids e hb, hv⟩
      · exact (List.mem_cons.1 hn).resolve_left fun e' => e e'.symm
  | @alias v b d c names us as h1 h2 h3 _ ih =>
    have e : b ≠ a := by
      rintro rfl
      exact h1 _ (.exported hv he)
    have e' : d ≠ a := by
      rintro rfl
      exact hs _ h2
    refine ih ?_ ((List.mem_cons.1 hn).resolve_left fun e' => e e'.symm)
    simp only [List.mem_append, not_or]
    exact ⟨h3.avoids e' hb, hv⟩
  | @unused v b names us as h1 _ _ ih =>
    have e : b ≠ a := by
      rintro rfl
      exact h1 _ (.exported hv he)
    exact ih hv ((List.mem_cons.1 hn).resolve_left fun e' => e e'.symm)

/-! ### C75 -/

section
variable [Recognizers]

theorem noDataCycle_text (L : Locale) (f : Filter) (s : Str) (hd : ∀ a b, Defined (seen f s) a → ¬ DataUse (seen f s) a b) :
    NoDataCycle (references L f s) := by
  intro a b _ hab hl
  have hdef : a = [] ∨ Defined (seen f s) a := by
    have key : ∀ x y, Leads (references L f s) x y → (x = [] ∨ Defined (seen f s) x) → y = [] ∨ Defined (seen f s) y := by
      intro x y h hx
      induction h with
      | refl => exact hx
      | step _ h _ ih =>
        refine ih ?_
        rcases h with h | h
        · exact ((C65_code L f s _ _).1 h).2.defined
        · exact ((C65_data L f s _ _).1 h).defined
    exact key b a hl ((C65_data L f s _ _).1 hab).defined
  have h := (C65_data L f s _ _).1 hab
  exact hd a b (hdef.resolve_left h.nonempty) h

/-- An exported label with its own address that mentions only exported labels cannot be taken. -/
theorem spared_text (L : Locale) (f : Filter) (s : Str) {a : Str} (he : Exported (seen f s) a) (hs : ∀ g, ¬ SameAddress (seen f s) g a)
    (hb : ∀ g, Defined (seen f s) g → CodeUse (seen f s) g a → g = a ∨ Exported (seen f s) g)
    (hd : ∀ g, Defined (seen f s) g → DataUse (seen f s) g a → g = a ∨ Exported (seen f s) g) :
    Spared (references L f s) (fun b => b = [] ∨ Defined (seen f s) b) a where
  visible := (C65_exported L f s a).2 he
  code b _ h := by
    obtain ⟨h1, h2⟩ := (C65_code L f s b a).1 h
    exact (hb b h1 h2).imp_right (C65_exported L f s b).2
  data b hb h := by
    have h := (C65_data L f s b a).1 h
    exact (hd b (hb.resolve_left h.nonempty) h).imp_right (C65_exported L f s b).2
  alias b h := hs b ((C65_same_address L f s b a).1 h)
  codeIn b c h := ((C65_code L f s b c).1 h).2.defined
  dataIn b c h := ((C65_data L f s b c).1 h).defined
  aliasIn b c h := .inr ((C65_same_address L f s b c).1 h).defined

/-- Such a label is found in use. -/
theorem spared_marks (L : Locale) (f : Filter) (s : Str) {o : Order} {n : Nat} {v v' : List Str} {p : TParser}
    (h : (TParser.init f).fromStream L o n s v = some (p, v')) {a : Str} (ha : Defined (seen f s) a) (he : Exported (seen f s) a)
    (hs : ∀ g, ¬ SameAddress (seen f s) g a)
    (hb : ∀ g, Defined (seen f s) g → CodeUse (seen f s) g a → g = a ∨ Exported (seen f s) g)
    (hd : ∀ g, Defined (seen f s) g → DataUse (seen f s) g a → g = a ∨ Exported (seen f s) g) (hv : a ∉ v) :
    ∃ (x : Found) (ms : List TLine), a ∈ x.used ∧ x.Sound (seen f s) ∧ ms.map TLine.noUse = (heldLines L f s).map TLine.noUse ∧
      (∀ w l y, ms = w ++ l :: y → (l.isUsed = true ↔ MarkedIn x.used l y) ∧ (l.isUsedThroughAlias = true ↔ MarkedIn x.aliases l y) ∧
        (l.isUsedDataThroughAlias = true ↔ MarkedIn x.dataAliases l y)) ∧
      ∀ drop : List TLine → TLine → Bool, (∀ b l, drop b l = true ↔ Removed f b l) →
        p.lines = (remaining drop [] ms).map p.finishKept := by
  have hkeys : ∀ a, a ∈ ((TParser.init f).readStream L s).labelsDefined.map (·.1) ↔ Defined (seen f s) a := by
    intro a
    rw [show Defined (seen f s) a ↔ _ from (C65_defined L f s a).symm, List.mem_map]
    exact ⟨fun ⟨⟨x, k⟩, h1, h2⟩ => ⟨k, h2 ▸ h1⟩, fun ⟨k, h⟩ => ⟨_, h, rfl⟩⟩
  obtain ⟨us, as, ds, ms, h1, ⟨r1, r2, r3⟩, h4⟩ := result_spares h (spared_text L f s he hs hb hd) (fun b hb => .inr ((hkeys b).1 hb)) hv ((hkeys a).2 ha)
  refine ⟨⟨us, as, ds⟩, ms, h1, ⟨?_, ?_, ?_⟩, h4⟩
  · exact fun a ha => (C65_reachable L f s a).1 (r1 a ha)
  · intro a ha
    obtain ⟨b, hb, hr⟩ := r2 a ha
    exact ⟨b, (C65_same_address L f s _ _).1 hb, (C65_reachable L f s b).1 hr⟩
  · intro a ha
    obtain ⟨r, b, hr, hb, hu⟩ := r3 a ha
    exact ⟨r, b, (C65_data L f s _ _).1 hr, (C65_same_address L f s _ _).1 hb, (C65_reachable L f s b).1 hu⟩

/-- C75: an exported function is kept, for every iteration order and whatever else is in the input, if all labels that its code and
the data below it mention are exported as well, and no label was placed at its address after it. -/
theorem C75_kept (L : Locale) (f : Filter) (s : Str) (o : Order) (n : Nat) (v v' : List Str) (p : TParser)
    (h : (TParser.init f).fromStream L o n s v = some (p, v'))
    (a : Str) (ha : Defined (seen f s) a) (he : Exported (seen f s) a) (hs : ∀ g, ¬ SameAddress (seen f s) g a)
    (hb : ∀ g, Defined (seen f s) g → CodeUse (seen f s) g a → g = a ∨ Exported (seen f s) g)
    (hd : ∀ g, Defined (seen f s) g → DataUse (seen f s) g a → g = a ∨ Exported (seen f s) g) (hv : a ∉ v) :
    ∃ l ∈ p.lines, l.isLabel = true ∧ l.label = a := by
  obtain ⟨x, ms, h1, -, h4, h5, h6⟩ := spared_marks L f s h ha he hs hb hd hv
  refine marked_label ha h4 (fun x l y e => (h5 x l y e).1) (fun drop hd => ?_) h1
  rw [h6 drop hd, List.map_map]
  exact List.map_congr_left fun l _ => finishKept_core _ l

/-- The code below a label that is found in use stays. -/
theorem used_body {L : Locale} {f : Filter} {s : Str} {p : TParser} {a : Str} {us : List Str} {ms : List TLine} (hus : a ∈ us)
    (h4 : ms.map TLine.noUse = (heldLines L f s).map TLine.noUse)
    (h5 : ∀ w l y, ms = w ++ l :: y → (l.isUsed = true ↔ MarkedIn us l y))
    (h6 : ∀ drop : List TLine → TLine → Bool, (∀ b l, drop b l = true ↔ Removed f b l) → p.lines = (remaining drop [] ms).map p.finishKept)
    {x body rest : List TLine} {l : TLine} (hh : heldLines L f s = x ++ l :: body ++ rest) (hl : l.isLabel = true ∧ l.label = a)
    (hlast : ∀ y ∈ body ++ rest, y.isLabel = true → y.label ≠ a)
    (hbody : ∀ y ∈ body, y.isLabel = true → y.isInternalLabel = true ∨ y.isInlineAsm = true) :
    ∀ y ∈ body, y.isLabel = false → y.isData = false → y.core ∈ p.lines.map TLine.core := by
  have h6 : ∀ drop : List TLine → TLine → Bool, (∀ b l, drop b l = true ↔ Removed f b l) →
      p.lines.map TLine.core = (remaining drop [] ms).map TLine.core := by
    intro drop hd
    rw [h6 drop hd, List.map_map]
    exact List.map_congr_left fun l _ => finishKept_core _ l
  rw [hh, List.map_append, List.map_append, List.map_cons] at h4
  obtain ⟨m12, rest', rfl, e12, e3⟩ := List.map_eq_append_iff.1 h4
  obtain ⟨x', m2, rfl, e1, e2⟩ := List.map_eq_append_iff.1 e12
  obtain ⟨l', body', rfl, el, eb⟩ := List.map_eq_cons_iff.1 e2
  have find : ∀ {us ws : List TLine}, us.map TLine.noUse = ws.map TLine.noUse → ∀ u ∈ us, ∃ w ∈ ws, u.noUse = w.noUse := by
    intro us ws e u hu
    have : u.noUse ∈ us.map TLine.noUse := List.mem_map_of_mem hu
    rw [e] at this
    obtain ⟨w, h1, h2⟩ := List.mem_map.1 this
    exact ⟨w, h1, h2.symm⟩
  have hl1 : l'.isLabel = true := (congrArg TLine.isLabel el :).trans hl.1
  have hl2 : l'.label = a := (congrArg TLine.label el :).trans hl.2
  have hused : l'.isUsed = true := by
    refine (h5 x' l' (body' ++ rest') (by simp)).2 ⟨hl1, hl2 ▸ hus, fun z hz hz1 hz2 => ?_⟩
    obtain ⟨w, hw, ew⟩ : ∃ w ∈ body ++ rest, z.noUse = w.noUse := by
      refine find ?_ z hz
      rw [List.map_append, List.map_append, eb, e3]
    exact hlast w hw ((congrArg TLine.isLabel ew :).symm.trans hz1) ((congrArg TLine.label ew :).symm.trans (hz2.trans hl2))
  intro y hy hy1 hy2
  obtain ⟨y', hy', ey⟩ := find eb.symm y hy
  rw [show y.core = y'.core from (congrArg TLine.core ey :)]
  refine body_kept (f := f) (x := x') (rest := rest') h6 hl1 hused (fun w hw hr => ?_) y' hy' ((congrArg TLine.isLabel ey :).symm.trans hy1)
    ((congrArg TLine.isData ey :).symm.trans hy2)
  obtain ⟨w', hw', ew⟩ := find eb w hw
  rw [show w.isInternalLabel = w'.isInternalLabel from (congrArg TLine.isInternalLabel ew :),
    show w.isInlineAsm = w'.isInlineAsm from (congrArg TLine.isInlineAsm ew :)]
  exact hbody w' hw' ((congrArg TLine.isLabel ew :).symm.trans hr)

/-- C75: and so is its code, i.e. every line below its label that is neither a label nor data, up to the next label that is neither
compiler-generated nor in inline assembly. -/
theorem C75_body (L : Locale) (f : Filter) (s : Str) (o : Order) (n : Nat) (v v' : List Str) (p : TParser)
    (h : (TParser.init f).fromStream L o n s v = some (p, v'))
    (a : Str) (he : Exported (seen f s) a) (hs : ∀ g, ¬ SameAddress (seen f s) g a)
    (hb : ∀ g, Defined (seen f s) g → CodeUse (seen f s) g a → g = a ∨ Exported (seen f s) g)
    (hd : ∀ g, Defined (seen f s) g → DataUse (seen f s) g a → g = a ∨ Exported (seen f s) g) (hv : a ∉ v)
    (x body rest : List TLine) (l : TLine) (hh : heldLines L f s = x ++ l :: body ++ rest) (hl : l.isLabel = true ∧ l.label = a)
    (hlast : ∀ y ∈ body ++ rest, y.isLabel = true → y.label ≠ a)
    (hbody : ∀ y ∈ body, y.isLabel = true → y.isInternalLabel = true ∨ y.isInlineAsm = true) :
    ∀ y ∈ body, y.isLabel = false → y.isData = false → y.core ∈ p.lines.map TLine.core := by
  have hdef : Defined (seen f s) a := by
    obtain ⟨e0, -, hinv⟩ := textInv L f s
    refine (C65_defined L f s a).1 ?_
    have := hinv.table.complete l (by show l ∈ heldLines L f s; rw [hh]; simp) hl.1
    obtain ⟨k, hk⟩ := Option.isSome_iff_exists.1 this
    exact ⟨k, hl.2 ▸ mem_of_lookup hk⟩
  obtain ⟨x, ms, hus, -, h4, h5, h6⟩ := spared_marks L f s h hdef he hs hb hd hv
  exact used_body hus h4 (fun w l y e => (h5 w l y e).1) h6 hh hl hlast hbody

/-- C75: but if its code mentions a label that is defined and not exported, then the program may remove the function. -/
theorem C75_lost (L : Locale) (f : Filter) (s : Str) (hu : f.unusedLabels = true)
    (hd : ∀ a b, Defined (seen f s) a → ¬ DataUse (seen f s) a b)
    (a g : Str) (h0 : a ≠ []) (he : Exported (seen f s) a) (hg : Defined (seen f s) g) (hga : CodeUse (seen f s) g a) (hne : g ≠ a)
    (hx : ¬ Exported (seen f s) g) :
    ∃ o n v' p, (TParser.init f).fromStream L o n s [] = some (p, v') ∧ ∀ l ∈ p.lines, l.isLabel = true → l.label ≠ a := by
  obtain ⟨n, ⟨p, v'⟩, h⟩ := C41_acyclic_partial L f s (Order.first g a) [] (noDataCycle_text L f s hd)
  refine ⟨_, n, v', p, h, ?_⟩
  have hkeys : ∀ a, a ∈ ((TParser.init f).readStream L s).labelsDefined.map (·.1) ↔ Defined (seen f s) a := by
    intro a
    rw [show Defined (seen f s) a ↔ _ from (C65_defined L f s a).symm, List.mem_map]
    exact ⟨fun ⟨⟨x, k⟩, h1, h2⟩ => ⟨k, h2 ▸ h1⟩, fun ⟨k, h⟩ => ⟨_, h, rfl⟩⟩
  obtain ⟨names, us, as, ms, h1, h2, h3, h4, h5, h6⟩ := result_front h (codeOnly_text L f s hd) (fun a ha => (hkeys a).1 ha) ((hkeys g).2 hg)
    ((C65_code L f s _ _).2 ⟨hg, hga⟩) (fun h => hx ((C65_exported L f s _).1 h)) ((C65_exported L f s _).2 he) hne.symm h0
  have := marks_labels (p := p) hu (fun b hb => (hkeys b).1 (h1.mem_iff.1 (h3 b (by simp [hb])))) h4 h5 (fun drop hd => by
    rw [h6 drop hd, List.map_map]
    exact List.map_congr_left fun l _ => finishKept_core _ l) a
  exact fun l hl l1 l2 => h2 (this.1 ⟨l, hl, l1, l2⟩)

/-- C75: an exported function with its own address is safe exactly if its code mentions no labels but exported ones. -/
theorem C75_safe (L : Locale) (f : Filter) (s : Str) (hu : f.unusedLabels = true)
    (hd : ∀ a b, Defined (seen f s) a → ¬ DataUse (seen f s) a b)
    (a : Str) (h0 : a ≠ []) (ha : Defined (seen f s) a) (he : Exported (seen f s) a) (hs : ∀ g, ¬ SameAddress (seen f s) g a) :
    (∀ o n v' p, (TParser.init f).fromStream L o n s [] = some (p, v') → ∃ l ∈ p.lines, l.isLabel = true ∧ l.label = a) ↔
      ∀ g, Defined (seen f s) g → CodeUse (seen f s) g a → g = a ∨ Exported (seen f s) g := by
  constructor
  · intro h g hg hga
    by_cases hne : g = a
    · exact .inl hne
    · refine .inr (Classical.byContradiction fun hx => ?_)
      obtain ⟨o, n, v', p, h1, h2⟩ := C75_lost L f s hu hd a g h0 he hg hga hne hx
      obtain ⟨l, hl, l1, l2⟩ := h o n v' p h1
      exact h2 l hl l1 l2
  · intro h o n v' p hp
    exact C75_kept L f s o n [] v' p hp a ha he hs h (fun g hg hu => (hd g a hg hu).elim) (by simp)

end

/-- Two exported functions, one of which calls the other. -/
def sampleSafe : Str := b! ".globl f\n.globl g\nf:\n call g\n ret\n" ++ b! "g:\n ret\nh:\n ret\n"

/-- The hypotheses of `C75_safe` and its right side hold for `f` in `sampleSafe`, although it mentions `g`. -/
example : (∀ a b, ¬ DataUse (seen { unusedLabels := true } sampleSafe) a b) ∧ Defined (seen { unusedLabels := true } sampleSafe) b! "f" ∧
    Exported (seen { unusedLabels := true } sampleSafe) b! "f" ∧ (∀ g, ¬ SameAddress (seen { unusedLabels := true } sampleSafe) g b! "f") ∧
    CodeUse (seen { unusedLabels := true } sampleSafe) b! "g" b! "f" ∧
    (∀ g, Defined (seen { unusedLabels := true } sampleSafe) g → CodeUse (seen { unusedLabels := true } sampleSafe) g b! "f" →
      g = b! "f" ∨ Exported (seen { unusedLabels := true } sampleSafe) g) := by
  have e : references Locale.utf8 { unusedLabels := true } sampleSafe =
      { usercode := [b! "f", b! "g"], used := [(b! "f", [[]]), (b! "g", [[], b! "f"])] } := by decide +kernel
  have t : ((TParser.init { unusedLabels := true }).readStream Locale.utf8 sampleSafe).labelsDefined = [(b! "f", 3), (b! "g", 6), (b! "h", 8)] := by
    decide +kernel
  refine ⟨fun a b hab => ?_, (C65_defined Locale.utf8 _ _ _).1 ⟨3, by rw [t]; simp⟩, (C65_exported Locale.utf8 _ _ _).1 (by rw [e]; simp),
    fun g hg => ?_, ((C65_code Locale.utf8 _ _ _ _).1 ⟨[[], b! "f"], by rw [e]; simp, by simp⟩).2, fun g h1 h2 => ?_⟩
  · rcases (C65_data Locale.utf8 _ _ _ _).2 hab with ⟨rs, h1, -⟩ | ⟨rs, h1, -⟩ <;> rw [e] at h1 <;> cases h1
  · have := (C65_same_address Locale.utf8 _ _ _ _).2 hg
    rw [e] at this
    cases this
  · obtain ⟨rs, h3, h4⟩ := (C65_code Locale.utf8 _ _ _ _).2 ⟨h1, h2⟩
    rw [e] at h3
    simp only [List.mem_cons, Prod.mk.injEq, List.not_mem_nil, or_false] at h3
    rcases h3 with ⟨rfl, rfl⟩ | ⟨rfl, rfl⟩
    · exact .inl rfl
    · exact .inr ((C65_exported Locale.utf8 _ _ _).1 (by rw [e]; simp))

/-- The hypotheses of `C75_lost` hold for `main` in `sampleCall`, which jumps to its own label `.L2`. -/
example : (∀ a b, ¬ DataUse (seen { unusedLabels := true } sampleCall) a b) ∧ Exported (seen { unusedLabels := true } sampleCall) b! "main" ∧
    Defined (seen { unusedLabels := true } sampleCall) b! ".L2" ∧ CodeUse (seen { unusedLabels := true } sampleCall) b! ".L2" b! "main" ∧
    ¬ Exported (seen { unusedLabels := true } sampleCall) b! ".L2" := by
  have e : references Locale.utf8 { unusedLabels := true } sampleCall =
      { usercode := [b! "main"], used := [(b! "main", [[]]), (b! ".L2", [b! "main"])] } := by decide +kernel
  have h := (C65_code Locale.utf8 { unusedLabels := true } sampleCall b! ".L2" b! "main").1 ⟨[b! "main"], by rw [e]; simp, by simp⟩
  refine ⟨fun a b hab => ?_, (C65_exported Locale.utf8 _ _ _).1 (by rw [e]; simp), h.1, h.2, fun hx => ?_⟩
  · rcases (C65_data Locale.utf8 _ _ _ _).2 hab with ⟨rs, h1, -⟩ | ⟨rs, h1, -⟩ <;> rw [e] at h1 <;> cases h1
  · have := (C65_exported Locale.utf8 _ _ _).2 hx
    rw [e] at this
    exact absurd this (by decide)

end AsmParser
