/-
Property C99: if all labels are exported, the filter for unused labels removes nothing.
-/
import Verif.Proofs.Exported
import Verif.Proofs.FilterRest
import Verif.Props.Circles
import Verif.Props.Lines
import Verif.Props.Graph
import Verif.Props.TextVisible
import Verif.Spec.Once
import Verif.Spec.TextSamples

namespace AsmParser

attribute [local irreducible] Re.search Re.fullMatch

/-! ### C99 -/

section
variable [Recognizers]

theorem DefinedOnce.held {f : Filter} {s : Str} (hd : DefinedOnce (seen f s)) (L : Locale) :
    (heldLines L f s).Pairwise fun l m => l.isLabel = true → m.isLabel = true → l.label ≠ m.label := by
  obtain ⟨zs, h1, h2, -, h3⟩ := C67_read L f s
  have hp : (zs.map (·.1)).Pairwise fun l m => l.isLabel = true → m.isLabel = true → l.label ≠ m.label := by
    refine List.pairwise_map.2 (List.Pairwise.imp_of_mem (fun {a b} ha hb hab ha2 hb2 heq => ?_) h2)
    obtain ⟨t, t1, t2⟩ := h3 a ha
    obtain ⟨u, u1, u2⟩ := h3 b hb
    have dt : t.Defines a.1.label := by
      rcases t2.label with h | h
      · exact h.2
      · rw [h.1] at ha2; cases ha2
    have du : u.Defines b.1.label := by
      rcases u2.label with h | h
      · exact h.2
      · rw [h.1] at hb2; cases hb2
    rw [← heq] at du
    exact hd _ _ t u _ hab t1 u1 dt du
  rw [h1, List.pairwise_map, List.pairwise_filter] at hp
  refine List.Pairwise.imp_of_mem (fun {l m} hl hm h hl1 hm1 => ?_) hp
  have ne : ∀ l ∈ heldLines L f s, l.isLabel = true → l.text ≠ [] := by
    intro l hl hlab hnil
    rcases read_line L f s hl with g2 | g2
    · have : l.isLabel = false := (congrArg TLine.isLabel g2 :)
      rw [this] at hlab; cases hlab
    · rcases g2.label with ⟨-, c, a2⟩ | ⟨a1, -⟩
      · rw [hnil] at a2
        exact not_defines_nil _ (getLabelFromLine_defines a2)
      · rw [a1] at hlab; cases hlab
  exact h (by simpa using ne l hl hl1) (by simpa using ne m hm hm1) hl1 hm1

/-- C99: if every label is exported, no label is defined twice and no label is marked as visited from an earlier call, then the
filter for unused labels removes nothing. -/
theorem C99_exported_partial {L : Locale} {f : Filter} {s : Str} {o : Order} {n : Nat} {v v' : List Str} {p : TParser}
    (h : (TParser.init f).fromStream L o n s v = some (p, v'))
    (hx : ∀ a, Defined (seen f s) a → Exported (seen f s) a ∧ a ∉ v) (h1 : DefinedOnce (seen f s)) (h2 : NoLooseData f s) :
    p.outputText = unlines (collapse (scan f s).shown) := by
  have hr := result_exported h (h2.held L) (fun a ha => by
    obtain ⟨e, he, rfl⟩ := List.mem_map.1 ha
    obtain ⟨h3, h4⟩ := hx e.1 ((C65_defined L f s e.1).1 ⟨e.2, he⟩)
    exact ⟨(C65_exported L f s e.1).2 h3, h4⟩) (h1.held L)
  have ht : p.lines.map TLine.text = (heldLines L f s).map TLine.text := by
    have := congrArg (List.map TLine.text) hr
    rw [List.map_map, List.map_map] at this
    refine Eq.trans (Eq.trans ?_ this) ?_
    · rfl
    · exact List.map_congr_left fun l _ => by
        simp only [Function.comp, TParser.finishKept]
        split
        · split <;> rfl
        · rfl
  rw [outputText_unlines, ht]
  exact congrArg unlines (readTags L f s).2.1

omit [Recognizers] in
theorem heldLines_unused (L : Locale) (f : Filter) (b : Bool) (s : Str) : heldLines L { f with unusedLabels := b } s = heldLines L f s := by
  show ((TParser.init { f with unusedLabels := b }).readStream L s).lines = _
  rw [read_unused]; rfl

theorem scan_unused (f : Filter) (b : Bool) (s : Str) : scan { f with unusedLabels := b } s = scan f s := rfl

/-- C99: with and without the filter both outputs are the same. -/
theorem C99_filter_partial {L : Locale} {f : Filter} {s : Str} {o : Order} {n : Nat} {v v' : List Str} {p q : TParser}
    (h : (TParser.init f).fromStream L o n s v = some (p, v')) (hq : TextResult L { f with unusedLabels := false } s q)
    (hx : ∀ a, Defined (seen f s) a → Exported (seen f s) a ∧ a ∉ v) (h1 : DefinedOnce (seen f s)) (h2 : NoLooseData f s) :
    p.outputText = q.outputText ∧ ∀ time, p.outputJson time = q.outputJson time := by
  have hr := result_exported h (h2.held L) (fun a ha => by
    obtain ⟨e, he, rfl⟩ := List.mem_map.1 ha
    obtain ⟨h3, h4⟩ := hx e.1 ((C65_defined L f s e.1).1 ⟨e.2, he⟩)
    exact ⟨(C65_exported L f s e.1).2 h3, h4⟩) (h1.held L)
  have h2' : NoLooseData { f with unusedLabels := false } s := h2
  have hr' := result_lines hq rfl (h2'.held L)
  have e : p.lines.map TLine.noUse = q.lines.map TLine.noUse := by
    rw [hr, hr', heldLines_unused L f false, read_unused false L f s]
    rfl
  obtain ⟨_, _, _, _, _, e1, -⟩ := (show TextResult L f s p from ⟨o, n, v, v', h⟩).outcome.frame
  obtain ⟨_, _, _, _, _, e2, -⟩ := hq.outcome.frame
  have hf : q.filter = { p.filter with unusedLabels := false } := by
    rw [e1, e2]
    show ((TParser.init { f with unusedLabels := false }).readStream L s).filter = { ((TParser.init f).readStream L s).filter with unusedLabels := false }
    rw [read_unused false L f s, read_filter]
    show (((TParser.init f).readStream L s).filter.withRest _) = _
    rw [read_filter]; rfl
  have ht : p.totalLines = q.totalLines := by
    rw [e1, e2]
    show _ = ((TParser.init { f with unusedLabels := false }).readStream L s).totalLines
    rw [read_unused false L f s]; rfl
  clear e1 e2
  have len : p.lines.length = q.lines.length := by simpa using congrArg List.length e
  have texts : ∀ ls : List TLine, (ls.flatMap fun l => l.text ++ [10]) = (ls.map TLine.noUse).flatMap fun l => l.text ++ [10] := by
    intro ls; rw [List.flatMap_map]; rfl
  refine ⟨?_, fun time => ?_⟩
  · unfold TParser.outputText
    rw [texts, e, ← texts]
  · have lines : ∀ ls : List TLine, (ls.map TLine.toAsm).map (writeLine q.filter) =
        ((ls.map TLine.noUse).map TLine.toAsm).map (writeLine q.filter) := by
      intro ls
      rw [List.map_map, List.map_map, List.map_map]
      rfl
    have hw : writeLine p.filter = writeLine q.filter := by rw [hf]; rfl
    unfold TParser.outputJson TParser.jsonDoc JsonDoc.write JsonDoc.filteredCount
    simp only
    rw [hw, lines, e, ← lines, redetermine_noUse, e, ← redetermine_noUse, ht]
    simp only [List.length_map, len]

/-- C99: in this case text mode always ends. -/
theorem C99_ends (L : Locale) (f : Filter) (s : Str) (o : Order) (v : List Str)
    (hx : ∀ a, Defined (seen f s) a → Exported (seen f s) a) : ∃ n r, (TParser.init f).fromStream L o n s v = some r := by
  have key : ∀ {a c d x}, RefChain (seen f s) a c d x → c = 0 := by
    intro a c d x h
    induction h with
    | refl => rfl
    | code h1 h2 _ =>
      unfold RefersTo at h2
      exact absurd (hx _ h2.1) h1
    | data _ _ _ ih => exact ih
  exact C41_balanced_partial L f s o v fun a n hc => absurd (key hc) (Nat.succ_ne_zero n)

omit [Recognizers] in
theorem DefinedOnce.of_names {ts : List Seen} (h : (ts.filterMap fun t => (getLabelFromLine t.text).map (·.1)).Nodup) : DefinedOnce ts := by
  intro i j t u a hij hi hj ht hu
  obtain ⟨hi1, hi2⟩ := List.getElem?_eq_some_iff.1 hi
  obtain ⟨hj1, hj2⟩ := List.getElem?_eq_some_iff.1 hj
  have := List.pairwise_iff_getElem.1 (List.pairwise_filterMap.1 h) i j hi1 hj1 hij a ?_ a ?_
  · exact this rfl
  · obtain ⟨x, c, e⟩ := (label_of_line _ _).2 ht.2.2
    rw [hi2, e]; rfl
  · obtain ⟨x, c, e⟩ := (label_of_line _ _).2 hu.2.2
    rw [hj2, e]; rfl

end

/-- Two exported functions and an exported table; all refer to each other. -/
def sampleExported : Str := b! ".globl f\nf:\n call g\n" ++ b! ".globl g\ng:\n call f\n jmp t\n" ++ b! ".globl t\nt:\n .long f\n"

/-- The hypotheses of C99 hold for it. -/
example : (∀ a, Defined (seen { unusedLabels := true } sampleExported) a → Exported (seen { unusedLabels := true } sampleExported) a ∧ a ∉ []) ∧
    DefinedOnce (seen { unusedLabels := true } sampleExported) ∧ NoLooseData { unusedLabels := true } sampleExported := by
  have e : (references Locale.utf8 { unusedLabels := true } sampleExported).usercode = [b! "f", b! "g", b! "t"] := by decide +kernel
  have t : ((TParser.init { unusedLabels := true }).readStream Locale.utf8 sampleExported).labelsDefined.map (·.1) = [b! "f", b! "g", b! "t"] := by
    decide +kernel
  refine ⟨fun a ha => ⟨(C65_exported Locale.utf8 _ _ _).1 ?_, by simp⟩, .of_names (by decide +kernel), .of_not (by simp)⟩
  obtain ⟨n, hn⟩ := (C65_defined Locale.utf8 _ _ a).2 ha
  rw [e, ← t]
  exact List.mem_map.2 ⟨_, hn, rfl⟩

example : (textRun { unusedLabels := true } sampleExported).map (·.outputText) = some sampleExported := by decide +kernel

/-- C99 fails for a label that is defined twice: although it is exported, its first definition is removed with what follows. -/
theorem C99_violation_twice : ∃ p q, TextResult Locale.utf8 { unusedLabels := true } b! ".globl f\nf:\n ret\nf:\n nop\n" p ∧
    TextResult Locale.utf8 {} b! ".globl f\nf:\n ret\nf:\n nop\n" q ∧
    p.outputText = b! ".globl f\nf:\n nop\n" ∧ q.outputText = b! ".globl f\nf:\n ret\nf:\n nop\n" := by
  obtain ⟨p, h1, h2⟩ := textRun_exists (f := { unusedLabels := true }) (s := b! ".globl f\nf:\n ret\nf:\n nop\n")
    (P := fun p => p.outputText = b! ".globl f\nf:\n nop\n") (by decide +kernel)
  obtain ⟨q, h3, h4⟩ := textRun_exists (f := {}) (s := b! ".globl f\nf:\n ret\nf:\n nop\n")
    (P := fun p => p.outputText = b! ".globl f\nf:\n ret\nf:\n nop\n") (by decide +kernel)
  exact ⟨p, q, h1, h3, h2, h4⟩

/-- C99 fails for a label left over from an earlier input on the same thread. -/
theorem C99_violation_history : ∃ p v', (TParser.init { unusedLabels := true }).fromStream Locale.utf8 Order.id 100 b! ".globl f\nf:\n ret\n" [b! "f"] =
    some (p, v') ∧ p.outputText = b! ".globl f\n" := by
  let r := (TParser.init { unusedLabels := true }).fromStream Locale.utf8 Order.id 100 b! ".globl f\nf:\n ret\n" [b! "f"]
  have h : (r.any fun p => decide (p.1.outputText = b! ".globl f\n")) = true := by decide +kernel
  cases hr : r with
  | none => rw [hr] at h; cases h
  | some p =>
    rw [hr] at h
    exact ⟨p.1, p.2, hr, by simpa using h⟩

end AsmParser
