/-
Property C80: which lines are missing from the result.
-/
import Verif.Proofs.Loss
import Verif.Props.Chains
import Verif.Spec.TextSamples

namespace AsmParser

attribute [local irreducible] Re.search Re.fullMatch

/-! ### C80 -/

/-- The lines of the result and where they come from. -/
theorem loss_lines (L : Locale) (f : Filter) (s : Str) (p : TParser) (h : TextResult L f s p) (hd : DataWithoutLabels f (seen f s)) :
    ∃ (x : Found) (defined : Str → Bool) (zs : List (TLine × Nat)), x.Sound (seen f s) ∧
      (∀ a, defined a = true ↔ Defined (seen f s) a) ∧
      zs.map (·.1) = p.lines.filter (fun l => l.text ≠ []) ∧ zs.Pairwise (fun a b => a.2 < b.2) ∧
      (∀ z ∈ zs, ∃ t, (seen f s)[z.2]? = some t ∧ Describes (seen f s) defined z.2 t z.1) ∧
      (∀ k, (∃ z ∈ zs, z.2 = k) ↔ (∃ t, (seen f s)[k]? = some t ∧ t.Kept f) ∧ ¬ RemovedAt f (seen f s) x k) ∧ FromRead L f s p zs := by
  have ho := h
  obtain ⟨o, n, v, v', h⟩ := h
  obtain ⟨us, as, ds, ms, ⟨r1, r2, r3⟩, h2, h3, h4⟩ := result_marks h
  obtain ⟨zs, g1, g2, g3, g4, g5⟩ := numbered_result (x := ⟨us, as, ds⟩) h2 h3 h4 hd
  refine ⟨⟨us, as, ds⟩, _, zs, ⟨?_, ?_, ?_⟩, fun a => ?_, g1, g2, g3, g4, g5⟩
  · exact fun a ha => (C65_reachable L f s a).1 (r1 a ha)
  · intro a ha
    obtain ⟨b, hb, hr⟩ := r2 a ha
    exact ⟨b, (C65_same_address L f s _ _).1 hb, (C65_reachable L f s b).1 hr⟩
  · intro a ha
    obtain ⟨r, b, hr, hb, hu⟩ := r3 a ha
    exact ⟨r, b, (C65_data L f s _ _).1 hr, (C65_same_address L f s _ _).1 hb, (C65_reachable L f s b).1 hu⟩
  · have hdef : p.labelsDefined = ((TParser.init f).readStream L s).labelsDefined := by
      obtain ⟨us, ls, lines, fl, ub, rfl, -⟩ := ho.outcome.frame
      rfl
    unfold Defined
    rw [← (readGraph L f s).defs, hdef]
    show _ ↔ a ∈ ((TParser.init f).readStream L s).labelsDefined.map (·.1)
    rw [List.mem_map]
    constructor
    · intro h
      obtain ⟨n, hn⟩ := Option.isSome_iff_exists.1 h
      exact ⟨_, mem_of_lookup hn, rfl⟩
    · rintro ⟨⟨x, n⟩, h, rfl⟩
      exact lookup_isSome h

/-- C80 (partial), for all filters: the lines of the result are exactly those that are kept when they are read (`Seen.Kept`) and not
removed later (`Spec/Loss.lean`), in their order, for some labels `x` found in use; each of them is found for a reason.  Missing: that
all labels in use are found, see `C80_violation`, and data directives that define labels (`DataWithoutLabels`). -/
theorem C80_lines_partial (L : Locale) (f : Filter) (s : Str) (p : TParser) (h : TextResult L f s p) (hd : DataWithoutLabels f (seen f s)) :
    ∃ (x : Found) (defined : Str → Bool) (zs : List (TLine × Nat)), x.Sound (seen f s) ∧
      (∀ a, defined a = true ↔ Defined (seen f s) a) ∧
      zs.map (·.1) = p.lines.filter (fun l => l.text ≠ []) ∧ zs.Pairwise (fun a b => a.2 < b.2) ∧
      (∀ z ∈ zs, ∃ t, (seen f s)[z.2]? = some t ∧ Describes (seen f s) defined z.2 t z.1) ∧
      ∀ k, (∃ z ∈ zs, z.2 = k) ↔ (∃ t, (seen f s)[k]? = some t ∧ t.Kept f) ∧ ¬ RemovedAt f (seen f s) x k := by
  obtain ⟨x, defined, zs, h1, h2, h3, h4, h5, h6, -⟩ := loss_lines L f s p h hd
  exact ⟨x, defined, zs, h1, h2, h3, h4, h5, h6⟩

/-- C80 (partial), for all filters and all inputs in which data refers to no label: the labels found in use are those of the
examination in `Spec/Chains.lean`, in some order.  Missing: data that refers to labels, and data directives that define labels. -/
theorem C80_exact_partial (L : Locale) (f : Filter) (s : Str) (o : Order) (n : Nat) (v v' : List Str) (p : TParser)
    (h : (TParser.init f).fromStream L o n s v = some (p, v')) (hu : ∀ a b, Defined (seen f s) a → ¬ DataUse (seen f s) a b)
    (hd : DataWithoutLabels f (seen f s)) :
    ∃ (names used aliases : List Str) (zs : List (TLine × Nat)), names.Nodup ∧ (∀ a, a ∈ names ↔ Defined (seen f s) a) ∧
      Examined (seen f s) v names used aliases ∧
      zs.map (·.1) = p.lines.filter (fun l => l.text ≠ []) ∧ zs.Pairwise (fun a b => a.2 < b.2) ∧
      (∀ z ∈ zs, ∃ t, (seen f s)[z.2]? = some t ∧ z.1.text = t.text) ∧
      ∀ k, (∃ z ∈ zs, z.2 = k) ↔ (∃ t, (seen f s)[k]? = some t ∧ t.Kept f) ∧ ¬ RemovedAt f (seen f s) ⟨used, aliases, []⟩ k := by
  have hkeys : ∀ a, a ∈ ((TParser.init f).readStream L s).labelsDefined.map (·.1) ↔ Defined (seen f s) a := by
    intro a
    rw [show Defined (seen f s) a ↔ _ from (C65_defined L f s a).symm, List.mem_map]
    exact ⟨fun ⟨⟨x, k⟩, h1, h2⟩ => ⟨k, h2 ▸ h1⟩, fun ⟨k, h⟩ => ⟨_, h, rfl⟩⟩
  obtain ⟨e0, -, hinv⟩ := textInv L f s
  obtain ⟨names, us, as, ms, h1, h2, -, h4, h5, h6⟩ := result_exact h (codeOnly_text L f s hu) fun a ha => (hkeys a).1 ha
  obtain ⟨zs, g1, g2, g3, g4, -⟩ := numbered_result (x := ⟨us, as, []⟩) h4
    (fun a l b e => by
      obtain ⟨k1, k2, k3⟩ := h5 a l b e
      exact ⟨k1, k2, by rw [k3]; exact ⟨fun h => (by cases h), fun h => absurd h.2.1 (by simp)⟩⟩) h6 hd
  exact ⟨names, us, as, zs, h1.nodup_iff.2 hinv.table.nodup, fun a => h1.mem_iff.trans (hkeys a), examined_text L f s (fun _ => Iff.rfl) h2,
    g1, g2, fun z hz => (g3 z hz).imp fun t ht => ⟨ht.1, ht.2.text⟩, g4⟩

/-- A constant and an exported function that uses it. -/
def sampleConstant : Str := b! ".LC0:\n .string \"a\"\n .globl f\nf:\n mov eax, .LC0\n"

/-- The filter `directives` in the compatibility mode. -/
def compatDirectives : Filter := { directives := true, compatmode := true }

private theorem sampleConstant_references : references Locale.utf8 compatDirectives sampleConstant =
    { usercode := [b! "f"], used := [(b! "f", [b! ".LC0"]), (b! ".LC0", [b! "f"])] } := by decide +kernel

/-- The hypotheses hold for the constant: its data refers to nothing and defines no label. -/
example : (∀ a b, ¬ DataUse (seen compatDirectives sampleConstant) a b) ∧ DataWithoutLabels compatDirectives (seen compatDirectives sampleConstant) := by
  refine ⟨fun a b hab => ?_, dataWithoutLabels_of_held (L := Locale.utf8) (by decide +kernel)⟩
  rcases (C65_data Locale.utf8 _ _ _ _).2 hab with ⟨rs, h1, -⟩ | ⟨rs, h1, -⟩ <;> rw [sampleConstant_references] at h1 <;> cases h1

/-- C80 is violated: the constant `.LC0` is in use, but its data is removed by the filter `directives`, even without the filter
`unused_labels`.  Whether this happens depends on the iteration order of a hash container. -/
theorem C80_violation : InUse (seen compatDirectives sampleConstant) b! ".LC0" ∧
    ∃ p p', TextResult Locale.utf8 compatDirectives sampleConstant p ∧ TextResult Locale.utf8 compatDirectives sampleConstant p' ∧
      p.outputText = b! ".LC0:\nf:\n mov eax, .LC0\n" ∧ p'.outputText = b! ".LC0:\n .string \"a\"\nf:\n mov eax, .LC0\n" := by
  refine ⟨(C65_reachable Locale.utf8 _ _ _).1 (.code (b := b! "f") ⟨[b! "f"], by rw [sampleConstant_references]; simp, by simp⟩
    (.visible (by rw [sampleConstant_references]; simp))), ?_⟩
  let r := (TParser.init compatDirectives).fromStream Locale.utf8 Order.rev 30 sampleConstant []
  let r' := (TParser.init compatDirectives).fromStream Locale.utf8 Order.id 30 sampleConstant []
  exact ⟨(r.get (by decide +kernel)).1, (r'.get (by decide +kernel)).1,
    ⟨Order.rev, 30, [], (r.get (by decide +kernel)).2, (Option.some_get _).symm⟩,
    ⟨Order.id, 30, [], (r'.get (by decide +kernel)).2, (Option.some_get _).symm⟩, by decide +kernel, by decide +kernel⟩

/-- C42 is violated without the filter for unused labels too: in the compatibility mode with the filter `directives` the output
depends on the iteration order. -/
theorem C42_violation_data : ∃ p p', TextResult Locale.utf8 compatDirectives sampleConstant p ∧
    TextResult Locale.utf8 compatDirectives sampleConstant p' ∧ compatDirectives.unusedLabels = false ∧ p.outputText ≠ p'.outputText := by
  obtain ⟨-, p, p', h, h', e, e'⟩ := C80_violation
  exact ⟨p, p', h, h', rfl, by rw [e, e']; decide⟩

end AsmParser
