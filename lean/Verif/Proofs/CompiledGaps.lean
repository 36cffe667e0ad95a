import Verif.Proofs.Gaps
import Verif.Props.CompiledUse
import Verif.Props.Gaps

/-
Helper lemmas for C107: the assembly code that a compiler writes, with empty lines.
-/

namespace AsmParser

attribute [local irreducible] Re.search Re.fullMatch

/-- Data that defines no labels, on the lines that were read. -/
theorem apart_of_seen [Recognizers] (L : Locale) (f : Filter) (s : Str) (hd : DataWithoutLabels f (seen f s)) :
    DataApart f ((TParser.init f).readStream L s).lines := by
  intro hc hdir l hl hlab
  rw [Bool.eq_false_iff]
  intro hdata
  have ht : l.text ≠ [] := by
    intro e
    rcases read_line L f s hl with h | h
    · have k : l.isLabel = false := congrArg TLine.isLabel h
      rw [k] at hlab; cases hlab
    · exact h.text e
  obtain ⟨zr, hzr⟩ := readHeld L f s
  have hm : l.bare ∈ ((TParser.init f).readStream L s).held := List.mem_filter.2 ⟨List.mem_map_of_mem hl, by simpa using (show l.bare.text ≠ [] from ht)⟩
  rw [← hzr.map] at hm
  obtain ⟨z, hz, e⟩ := List.mem_map.1 hm
  obtain ⟨t, ht', told⟩ := hzr.told z hz
  have g1 : z.1.isLabel = l.isLabel := (congrArg TLine.isLabel e :)
  have g2 : z.1.isData = l.isData := (congrArg TLine.isData e :)
  have hnd := hd hc hdir t (List.mem_of_getElem? ht') (told.rest.data.1 (g2.trans hdata)).2
  rcases told.rest.label with ⟨-, h⟩ | ⟨h, -⟩
  · exact hnd _ h
  · rw [g1, hlab] at h; cases h

/-- It does not depend on the empty lines. -/
theorem apart_plain {f : Filter} {p q : TParser} (h : p.plain = q.plain) (hp : ∀ l ∈ p.lines, l.text = [] → l.isLabel = false)
    (hq : DataApart f q.lines) : DataApart f p.lines := by
  intro hc hdir l hl hlab
  have ht : l.text ≠ [] := fun e => by rw [hp l hl e] at hlab; cases hlab
  have hm : l.plain ∈ filled p.lines := List.mem_map_of_mem (List.mem_filter.2 ⟨hl, by simpa using ht⟩)
  rw [show filled p.lines = filled q.lines from congrArg TParser.lines h] at hm
  obtain ⟨m, hm, e⟩ := List.mem_map.1 hm
  have g1 : m.isLabel = l.isLabel := (congrArg TLine.isLabel e :)
  have g2 : m.isData = l.isData := (congrArg TLine.isData e :)
  rw [← g2]
  exact hq hc hdir m (List.mem_filter.1 hm).1 (g1.trans hlab)

/-- Runs on the program with empty lines and without them correspond to each other. -/
theorem gaps_runs (L : Locale) {f : Filter} (hf : CompiledFilter f) {xs : List CLine} (hx : ∀ x ∈ xs, x.Wf)
    (hc : f.compatmode = true → ∀ x ∈ xs, x.isLabel = true → ¬ StartsWithOneOf dataDirectives x.text)
    {s : Str} (hs : inked (inputLines s) = xs.map CLine.render) (o : Order) (n : Nat) (v : List Str) :
    (∀ p v', (TParser.init f).fromStream L o n s v = some (p, v') →
      ∃ q, (TParser.init f).fromStream L o n (unlines (xs.map CLine.render)) v = some (q, v') ∧ filled p.lines = filled q.lines) ∧
    (∀ q v', (TParser.init f).fromStream L o n (unlines (xs.map CLine.render)) v = some (q, v') →
      ∃ p, (TParser.init f).fromStream L o n s v = some (p, v')) := by
  letI := recognizers
  have hlines : inputLines (unlines (xs.map CLine.render)) = xs.map CLine.render := by
    refine inputLines_unlines _ fun l hl => ?_
    obtain ⟨x, hm, rfl⟩ := List.mem_map.1 hl
    exact (hx x hm).usual.noNewline
  have hink : inked (inputLines s) = inked (inputLines (unlines (xs.map CLine.render))) := by
    rw [hlines, hs]
    refine (List.filter_eq_self.2 fun l hl => ?_).symm
    rw [← hs] at hl
    exact (List.mem_filter.1 hl).2
  obtain ⟨ys, hseen, -, sub, same, -⟩ := compiled_seen hf hx
  have hdata : DataWithoutLabels f (seen f (unlines (xs.map CLine.render))) := by
    intro h1 _ t ht hst a ha
    rw [hseen] at ht
    obtain ⟨y, hm, rfl⟩ := List.mem_map.1 ht
    obtain ⟨nt, rfl⟩ := (defines_iff (hx y (sub.subset hm))).1 ha
    exact hc h1 _ (sub.subset hm) rfl hst
  have a0 := apart_of_seen L f _ hdata
  have a1 : DataApart f ((TParser.init f).readStream L s).lines := by
    refine apart_plain (readStream_plain L hf.library hink) (fun l hl e => ?_) a0
    rcases read_line L f s hl with h | h
    · exact (congrArg TLine.isLabel h :)
    · exact (h.text e).elim
  constructor
  · intro p v' h
    obtain ⟨q, h1, h2⟩ := fromStream_filled L hf.library hink a1 a0 o n v h
    exact ⟨q, h1, h2.symm⟩
  · intro q v' h
    obtain ⟨p, h1, -⟩ := fromStream_filled L hf.library hink.symm a0 a1 o n v h
    exact ⟨p, h1⟩

theorem filled_texts {a b : List TLine} (h : filled a = filled b) : inked (a.map TLine.text) = inked (b.map TLine.text) := by
  rw [inked_filter, inked_filter, h]

theorem filled_rows {a b : List TLine} (h : filled a = filled b) :
    (a.filter fun l => l.text ≠ []).map (fun l => (l.text, l.isLabel, if l.isLabel then none else l.shownSource)) =
    (b.filter fun l => l.text ≠ []).map fun l => (l.text, l.isLabel, if l.isLabel then none else l.shownSource) := by
  have key : ∀ ls : List TLine, (ls.filter fun l => l.text ≠ []).map (fun l => (l.text, l.isLabel, if l.isLabel then none else l.shownSource)) =
      (filled ls).map fun l => (l.text, l.isLabel, if l.isLabel then none else l.shownSource) := by
    intro ls
    unfold filled
    rw [List.map_map]
    refine List.map_congr_left fun l _ => ?_
    show _ = (l.plain.text, l.plain.isLabel, if l.plain.isLabel then none else l.plain.shownSource)
    unfold TLine.plain TLine.shownSource
    cases l.isLabel <;> rfl
  rw [key, key, h]

/-- Without empty lines nothing is to be left out. -/
theorem inked_shown {L : Locale} {f : Filter} (hf : CompiledFilter f) {xs : List CLine} (hx : ∀ x ∈ xs, x.Wf) {q : TParser}
    (h : TextResult L f (unlines (xs.map CLine.render)) q) : inked (q.lines.map TLine.text) = q.lines.map TLine.text := by
  letI := recognizers
  have := compiled_filled hf hx h
  rw [show inked (q.lines.map TLine.text) = (q.lines.filter fun l => l.text ≠ []).map TLine.text by
    unfold inked; rw [List.filter_map]; rfl, this]

end AsmParser
