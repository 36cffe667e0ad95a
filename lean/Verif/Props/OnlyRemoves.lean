/-
Property C100: the filter for unused labels removes lines and does nothing else.
-/
import Verif.Proofs.FilterRest
import Verif.Proofs.UsageOrder
import Verif.Props.JsonExact
import Verif.Props.TextMode
import Verif.Spec.TextSamples

namespace AsmParser

attribute [local irreducible] Re.search Re.fullMatch

/-! ### C100 -/

/-- C100: a call with the filter for unused labels ends exactly if the call without it does, and leaves the same labels as visited.
Its lines are among those of the other call, in the same order, with everything that is known about them. -/
theorem C100_unused (L : Locale) (f : Filter) (s : Str) (o : Order) (n : Nat) (v : List Str) :
    ((TParser.init { f with unusedLabels := true }).fromStream L o n s v = none ↔
      (TParser.init { f with unusedLabels := false }).fromStream L o n s v = none) ∧
    ∀ p v', (TParser.init { f with unusedLabels := true }).fromStream L o n s v = some (p, v') →
      ∃ q, (TParser.init { f with unusedLabels := false }).fromStream L o n s v = some (q, v') ∧
        p.lines.Sublist q.lines ∧ p.totalLines = q.totalLines := by
  have e1 := fromStream_rest { f with unusedLabels := true } L o n f s v
  have e2 := fromStream_rest { f with unusedLabels := false } L o n f s v
  have hm : ∀ r, TParser.markLabelUsage o n ((TParser.init f).readStream L s).filterNonLabels v = some r → r.1.filter = f := by
    intro r hr
    obtain ⟨ls, ub, h1, -⟩ := markLabelUsage_frame hr
    rw [h1]
    exact read_filter L f s
  rw [show (TParser.init { f with unusedLabels := true }).fromStream L o n s v = _ from e1,
    show (TParser.init { f with unusedLabels := false }).fromStream L o n s v = _ from e2]
  cases hr : TParser.markLabelUsage o n ((TParser.init f).readStream L s).filterNonLabels v with
  | none => exact ⟨⟨fun _ => rfl, fun _ => rfl⟩, fun p v' h => by cases h⟩
  | some r =>
    refine ⟨⟨fun h => (by cases h), fun h => (by cases h)⟩, fun p v' h => ?_⟩
    simp only [Option.map_some, Option.some.injEq, Prod.mk.injEq] at h
    obtain ⟨rfl, rfl⟩ := h
    refine ⟨_, rfl, ?_, rfl⟩
    exact removeLoop_fewer (r.1.withRest { f with unusedLabels := true }) (r.1.withRest { f with unusedLabels := false })
      ⟨f, by show r.1.filter.withRest _ = _; rw [hm r hr]; rfl, by show r.1.filter.withRest _ = _; rw [hm r hr]; rfl⟩ rfl rfl
      {} {} rfl rfl rfl rfl r.1.lines

theorem numberedLabels_names (n : Nat) (ls : List TLine) : ∀ e ∈ numberedLabels n ls, ∃ l ∈ ls, l.isLabel = true ∧ l.label = e.1 := by
  rw [← redetermine_eq]
  induction ls generalizing n with
  | nil => exact fun e he => absurd he (by simp [redetermineLabels])
  | cons l ls ih =>
    intro e he
    unfold redetermineLabels at he
    split at he
    · rename_i hl
      rcases List.mem_cons.1 he with rfl | he
      · exact ⟨l, List.mem_cons_self .., hl, rfl⟩
      · obtain ⟨m, h1, h2⟩ := ih _ e he
        exact ⟨m, List.mem_cons_of_mem _ h1, h2⟩
    · obtain ⟨m, h1, h2⟩ := ih _ e he
      exact ⟨m, List.mem_cons_of_mem _ h1, h2⟩

theorem names_numberedLabels (n : Nat) (ls : List TLine) : ∀ l ∈ ls, l.isLabel = true → ∃ e ∈ numberedLabels n ls, e.1 = l.label := by
  rw [← redetermine_eq]
  induction ls generalizing n with
  | nil => exact fun e he => absurd he (by simp)
  | cons l ls ih =>
    intro m hm hlab
    unfold redetermineLabels
    rcases List.mem_cons.1 hm with rfl | hm
    · rw [if_pos hlab]
      exact ⟨_, List.mem_cons_self .., rfl⟩
    · obtain ⟨e, h1, h2⟩ := ih (n + 1) m hm hlab
      split
      · exact ⟨e, List.mem_cons_of_mem _ h1, h2⟩
      · exact ⟨e, h1, h2⟩

/-- C100 for the outputs: the lines of the text output are among those without the filter, in the same order; if the JSON output without
the filter is valid, so is the one with it, the objects for the lines are among those without the filter, in the same order, and
`filteredCount` is greater by the number of lines removed. -/
theorem C100_outputs (L : Locale) (f : Filter) (s : Str) (o : Order) (n : Nat) (v v' : List Str) (p q : TParser) (time : Int)
    (hp : (TParser.init { f with unusedLabels := true }).fromStream L o n s v = some (p, v'))
    (hq : (TParser.init { f with unusedLabels := false }).fromStream L o n s v = some (q, v')) :
    (∃ ls ms, p.outputText = unlines ls ∧ q.outputText = unlines ms ∧ ls.Sublist ms) ∧
    ∀ j, readJson (q.outputJson time) = some j → ∃ (xs ys : List JVal) (dp dq : JVal) (k : Int),
      j = .obj [(b! "asm", .arr ys), (b! "labelDefinitions", dq), (b! "parsingTime", .num time), (b! "filteredCount", .num k)] ∧
      readJson (p.outputJson time) = some (.obj [(b! "asm", .arr xs), (b! "labelDefinitions", dp), (b! "parsingTime", .num time),
        (b! "filteredCount", .num (k + (ys.length - xs.length)))]) ∧ xs.Sublist ys := by
  obtain ⟨q', h1, h2, h3⟩ := (C100_unused L f s o n v).2 p v' hp
  rw [hq] at h1
  cases h1
  refine ⟨⟨_, _, outputText_unlines p, outputText_unlines q, h2.map _⟩, fun j hj => ?_⟩
  obtain ⟨a1, a2⟩ := C20_text_exact L _ s q time ⟨o, n, v, v', hq⟩
  obtain ⟨b1, -⟩ := C20_text_exact L _ s p time ⟨o, n, v, v', hp⟩
  by_cases hw : Writable { f with unusedLabels := false } (q.lines.map TLine.toAsm) (numberedLabels 1 q.lines)
  · rw [a1 hw] at hj
    have hw' : Writable { f with unusedLabels := true } (p.lines.map TLine.toAsm) (numberedLabels 1 p.lines) := by
      refine ⟨fun l hl => ?_, fun e he => ?_⟩
      · have := hw.1 l ((h2.map _).subset hl)
        exact ⟨this.text, this.sect, this.file, this.refs, this.opcodes⟩
      · obtain ⟨l, hl, hlab, e1⟩ := numberedLabels_names 1 p.lines e he
        obtain ⟨e', h4, h5⟩ := names_numberedLabels 1 q.lines l (h2.subset hl) hlab
        rw [← e1, ← h5]
        exact hw.2 e' h4
    refine ⟨(p.lines.map TLine.toAsm).map (lineJson f.compatmode (!f.dontMaskFilenames)), _,
      .obj ((numberedLabels 1 p.lines).map fun d => (d.1, .num d.2)), _, _, (Option.some.inj hj).symm, ?_, (h2.map TLine.toAsm).map _⟩
    rw [b1 hw']
    unfold documentJson
    simp only [List.length_map, h3]
    rw [show ((q.totalLines : Int) - p.lines.length) = (q.totalLines : Int) - q.lines.length + (q.lines.length - p.lines.length) by omega]
    rfl
  · rw [a2 hw] at hj; cases hj

/-- Something is removed from the sample, and both outputs are valid. -/
example : (textRun { unusedLabels := true } b! ".globl f\nf:\n ret\ng:\n nop\n").map (·.outputText) = some b! ".globl f\nf:\n ret\n" ∧
    (textRun {} b! ".globl f\nf:\n ret\ng:\n nop\n").map (·.outputText) = some b! ".globl f\nf:\n ret\ng:\n nop\n" ∧
    (textRun {} b! ".globl f\nf:\n ret\ng:\n nop\n").any (fun q => (readJson (q.outputJson 0)).isSome) = true := by decide +kernel

end AsmParser
