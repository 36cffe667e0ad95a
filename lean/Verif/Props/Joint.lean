/-
Property C80: which lines are missing from the result, and what the others show, together.
-/
import Verif.Props.Loss
import Verif.Props.Settle

namespace AsmParser

attribute [local irreducible] Re.search Re.fullMatch

/-- The section and the source position of a line that is left. -/
theorem FromRead.shown [Recognizers] {L : Locale} {f : Filter} {s : Str} {p : TParser} (h : TextResult L f s p) {zs : List (TLine × Nat)}
    (hz : FromRead L f s p zs) (l : TLine) (k : Nat) (hm : (l, k) ∈ zs) : SectionAt ((seen f s).take (k + 1)) l.sect.s ∧
      ∃ m q, (l.isLabel = false → m = k) ∧
        (l.isLabel = true → (m = k ∧ ∀ j, ¬ GivesPosition f s k j) ∨ GivesPosition f s k m ∧ ∀ j, GivesPosition f s k j → j ≤ m) ∧
        PositionAt ((seen f s).take (m + 1)) q ∧ ShownAs (seen f s) q l.shownSource := by
  obtain ⟨hs, -⟩ := finalSettled h
  obtain ⟨gs, ws, hgs, hw⟩ := readSettled L f s
  obtain ⟨l0, rfl, ⟨l1, k1⟩, hwm, rfl, e⟩ := hz ((ws.filter fun w => w.1.text ≠ []).map fun w => (w.1, w.2.1))
    (by
      unfold heldLines
      rw [List.map_map, ← hw.map, List.filter_map]; rfl)
    (by
      have ho := List.pairwise_map.1 hw.stored.order
      rw [List.pairwise_map, List.pairwise_filter]
      exact ho.imp fun {a b} hab ha _ => hab (show a.1.text ≠ [] by simpa using ha))
    (fun k => by
      rw [← hw.stored.kept k]
      constructor
      · rintro ⟨w, hm, rfl⟩
        obtain ⟨z, hm1, rfl⟩ := List.mem_map.1 hm
        obtain ⟨hm2, hn⟩ := List.mem_filter.1 hm1
        have hn : z.1.text ≠ [] := by simpa using hn
        exact ⟨tagOf z, List.mem_map_of_mem hm2, hn, rfl⟩
      · rintro ⟨x, hm, hn, rfl⟩
        obtain ⟨z, hm1, rfl⟩ := List.mem_map.1 hm
        have hn : z.1.text ≠ [] := hn
        exact ⟨_, List.mem_map.2 ⟨z, List.mem_filter.2 ⟨hm1, by simpa using hn⟩, rfl⟩, rfl⟩) _ hm
  obtain ⟨z, hzm, e2⟩ := List.mem_map.1 hwm
  obtain ⟨rfl, rfl⟩ := Prod.mk.inj e2
  obtain ⟨hzm, hn⟩ := List.mem_filter.1 hzm
  have hn : z.1.text ≠ [] := by simpa using hn
  have hg := hw.good z hzm hn
  have t2 : z.1.sect = l0.sect := (congrArg TLine.sect e :)
  have t3 : z.1.isLabel = l0.isLabel := (congrArg TLine.isLabel e :)
  have t4 : z.1.source = l0.source := (congrArg TLine.source e :)
  obtain ⟨q, hq, hh⟩ := hg.pos
  rw [t4] at hh
  refine ⟨by rw [finishKept_sect, ← t2]; exact hg.sect, z.2.2, q, ?_, fun hl => ?_, hq, shownAs hs hh⟩
  · rw [finishKept_isLabel, ← t3]; exact hg.eq
  · rw [finishKept_isLabel, ← t3] at hl
    have a2 : ∀ j, GivesPosition f s z.2.1 j → j ≤ z.2.2 := by
      rintro j ⟨a1, ⟨t, a2, a3, a4⟩, a5⟩
      exact hw.next z hzm hn hl j t a1 a2 a3 a4 ((hw.stored.clear hgs (List.getElem?_eq_some_iff.1 a2).1).2 a5)
    by_cases hmk : z.2.2 = z.2.1
    · refine .inl ⟨hmk, fun j hj => ?_⟩
      have h3 := a2 j hj
      have h4 := hj.1
      omega
    · obtain ⟨b1, b2⟩ := hw.stay z hzm hn hmk
      have := hg.le
      exact .inr ⟨⟨by omega, b1, (hw.stored.clear hgs hg.lt).1 b2⟩, a2⟩

/-- C80 (partial), together with C60, C61 and C67, for all filters: the lines of the result are exactly those that are kept when they
are read and not removed later, for some labels `x` found in use, each for a reason.  Each of these lines shows what its text in the
input says (`Describes`), the section there, and the source position there or, if it is a label, the one that the last directive gives
to it.  So the removal of some lines changes nothing for the others.  Missing: as for `C80_lines_partial`. -/
theorem C80_joint_partial (L : Locale) (f : Filter) (s : Str) (p : TParser) (h : TextResult L f s p) (hd : DataWithoutLabels f (seen f s)) :
    ∃ (x : Found) (defined : Str → Bool) (zs : List (TLine × Nat)), x.Sound (seen f s) ∧
      (∀ a, defined a = true ↔ Defined (seen f s) a) ∧
      zs.map (·.1) = p.lines.filter (fun l => l.text ≠ []) ∧ zs.Pairwise (fun a b => a.2 < b.2) ∧
      (∀ l k, (l, k) ∈ zs → (∃ t, (seen f s)[k]? = some t ∧ Describes (seen f s) defined k t l) ∧
        SectionAt ((seen f s).take (k + 1)) l.sect.s ∧
        ∃ m q, (l.isLabel = false → m = k) ∧
          (l.isLabel = true → (m = k ∧ ∀ j, ¬ GivesPosition f s k j) ∨ GivesPosition f s k m ∧ ∀ j, GivesPosition f s k j → j ≤ m) ∧
          PositionAt ((seen f s).take (m + 1)) q ∧ ShownAs (seen f s) q l.shownSource) ∧
      ∀ k, (∃ z ∈ zs, z.2 = k) ↔ (∃ t, (seen f s)[k]? = some t ∧ t.Kept f) ∧ ¬ RemovedAt f (seen f s) x k := by
  obtain ⟨x, defined, zs, h1, h2, h3, h4, h5, h6, h7⟩ := loss_lines L f s p h hd
  exact ⟨x, defined, zs, h1, h2, h3, h4, fun l k hm => ⟨h5 _ hm, h7.shown h l k hm⟩, h6⟩

/-- An unused function between two others: the lines that are left show the positions and sections as before. -/
example : ∃ p, TextResult Locale.utf8 { directives := true, unusedLabels := true }
      (b! ".file 1 \"a.c\"\n.text\n.globl f\n.globl h\nf:\n.loc 1 2\n call h\ng:\n.loc 1 3\n ret\n" ++ b! ".data\nh:\n.loc 1 4\n nop\n") p ∧
    p.lines.map (fun l => (l.text, l.shownSource)) =
      [(b! "f:", some (b! "a.c", 2, 0)), (b! " call h", some (b! "a.c", 2, 0)), (b! "h:", some (b! "a.c", 4, 0)),
       (b! " nop", some (b! "a.c", 4, 0))] ∧
    p.lines.map (fun l => l.sect.s) = [b! "text", b! "text", b! "data", b! "data"] :=
  textRun_exists (by decide +kernel)

end AsmParser
