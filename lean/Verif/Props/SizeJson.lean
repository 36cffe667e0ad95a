/-
Property C98: the length of the JSON output of text mode.
-/
import Verif.Proofs.JsonSize
import Verif.Proofs.JsonUtf8
import Verif.Props.Size
import Verif.Props.References
import Verif.Props.TextJson

namespace AsmParser

attribute [local irreducible] Re.search Re.fullMatch

/-- C98 (partial): the JSON output of text mode is at most about 33 times the square of the length of the input, for all filters.
Missing: a linear bound, see `C98_violation`. -/
theorem C98_json_partial (L : Locale) (f : Filter) (s : Str) (p : TParser) (time : Int) (h : TextResult L f s p) :
    (p.outputJson time).length ≤ 33 * s.length ^ 2 + 1500 * s.length + 800 + (intToDec time).length := by
  letI := recognizers
  have hseen : ∀ t ∈ seen f s, t.text.length ≤ 8 * s.length := fun t ht => seen_size ht
  have hsize : sizeOfTexts (p.lines.map (·.text)) ≤ 8 * s.length + 2 := by
    have h1 := h.outcome.core
    have e : ∀ ls : List TLine, (ls.map TLine.core).map (·.text) = ls.map (·.text) := fun ls => by rw [List.map_map]; rfl
    have h2 := sizeOfTexts_sublist (h1.map (·.text))
    rw [e, e] at h2
    exact Nat.le_trans h2 (read_size L f s)
  have hsize : (p.lines.map fun l => l.text.length).sum + p.lines.length ≤ 8 * s.length + 2 := by
    have e : sizeOfTexts (p.lines.map (·.text)) = (p.lines.map fun l => l.text.length).sum + p.lines.length := by
      unfold sizeOfTexts
      rw [List.map_map]
      generalize p.lines = ls
      induction ls with
      | nil => rfl
      | cons l ls ih =>
        simp only [List.map_cons, List.sum_cons, List.length_cons, ih, Function.comp]
        omega
    rwa [e] at hsize
  have hin : (inputLines s).length ≤ s.length + 1 := by
    have := (inputLinesFrom_size s []).1
    have e : inputLines s = inputLinesFrom [] s := rfl
    simp only [List.length_nil] at this
    rw [e]
    omega
  obtain ⟨hc1, -, hc3⟩ := C59_bounds L f s p time h
  have hm : p.lines.length ≤ s.length + 2 := by omega
  have hlab : ∀ l ∈ p.lines, 2 * (if l.isLabel = true then l.label.length else 0) ≤ 2 * l.text.length := by
    intro l hl
    split
    · rename_i hi
      obtain ⟨d, zs, -, e2, -, h3, -⟩ := C67_lines L f s p h
      by_cases ht : l.text = []
      · obtain ⟨l0, h1, h2, -⟩ := h.outcome.mem hl
        have et : l.text = l0.text := (congrArg TLine.text h2 :)
        have el : l.isLabel = l0.isLabel := (congrArg TLine.isLabel h2 :)
        rcases read_line L f s h1 with h7 | h7
        · have e2 : l0.isLabel = false := (congrArg TLine.isLabel h7 :)
          rw [el, e2] at hi
          cases hi
        · exact absurd (et.symm.trans ht) h7.text
      · obtain ⟨l0, h1, h2, -⟩ := h.outcome.mem hl
        have et : l.text = l0.text := (congrArg TLine.text h2 :)
        have eb : l.label = l0.label := (congrArg TLine.label h2 :)
        have el : l.isLabel = l0.isLabel := (congrArg TLine.isLabel h2 :)
        rcases read_line L f s h1 with h7 | h7
        · exact absurd (et.trans (congrArg TLine.text h7 :)) ht
        · rcases h7.label with ⟨-, c, a2⟩ | ⟨a1, -⟩
          · have := defines_size (getLabelFromLine_defines a2)
            rw [et, eb]
            omega
          · rw [el, a1] at hi; cases hi
    · omega
  have hline : ∀ l ∈ p.lines, (TLine.toAsm l).weight + 2 * (TLine.toAsm l).text.length ≤ 150 * l.text.length + (32 * s.length + 187) := by
    intro l hl
    have hrefs : (l.labels.map AsmLabel.weight).sum ≤ 148 * l.text.length := by
      obtain ⟨l0, h1, h2, h3, -⟩ := h.outcome.mem hl
      have et : l.text = l0.text := (congrArg TLine.text h2 :)
      refine Nat.le_trans ?_ (usedLabels_weight L l.text)
      rw [h3]
      refine Nat.le_trans (sum_sublist_le _ List.filter_sublist) ?_
      rcases (line_refs h1).1 with h | ⟨-, h⟩
      · rw [h]; exact Nat.zero_le _
      · rw [h, et]; exact Nat.le_refl _
    have hsect : l.sect.s.length ≤ 8 * s.length := by
      by_cases ht : l.text = []
      · rw [(blank_result h l hl ht).2]; exact Nat.zero_le _
      obtain ⟨zs, h1, -, h3⟩ := C61_sections_partial L f s p h
      have : l ∈ p.lines.filter (fun l => l.text ≠ []) := List.mem_filter.2 ⟨hl, by simpa using ht⟩
      rw [← h1] at this
      obtain ⟨⟨l', k⟩, hz, rfl⟩ := List.mem_map.1 this
      exact sectionAt_size (h3 _ _ hz).2 fun x hx => hseen x (List.mem_of_mem_take hx)
    have hsrc : (if l.source.line > 0 then 2 * l.source.file.s.length + (intToDec l.source.line).length + (intToDec l.source.column).length
        else 0) ≤ 16 * s.length + 24 := by
      split
      · rename_i hp
        by_cases ht : l.text = []
        · rw [(blank_result h l hl ht).1] at hp
          exact absurd hp (by decide)
        obtain ⟨zs, h1, -, h3⟩ := C60_positions_partial L f s p h
        have : l ∈ p.lines.filter (fun l => l.text ≠ []) := List.mem_filter.2 ⟨hl, by simpa using ht⟩
        rw [← h1] at this
        obtain ⟨⟨l', k, m⟩, hz, rfl⟩ := List.mem_map.1 this
        obtain ⟨-, -, -, -, -, -, q, hq, hsh⟩ := h3 _ _ _ hz
        unfold TLine.shownSource at hsh
        rw [if_pos hp] at hsh
        obtain ⟨g1, g2, g3⟩ := shownAs_size hq hsh hseen fun x hx => hseen x (List.mem_of_mem_take hx)
        have g4 := intToDec_digits (k := 9) g2
        have g5 := intToDec_digits (k := 9) g3
        show 2 * l'.source.file.s.length + (intToDec l'.source.line).length + (intToDec l'.source.column).length ≤ _
        omega
      · exact Nat.zero_le _
    have e : (TLine.toAsm l).weight = 2 * l.sect.s.length +
        (if l.source.line > 0 then 2 * l.source.file.s.length + (intToDec l.source.line).length + (intToDec l.source.column).length else 0) +
        (l.labels.map AsmLabel.weight).sum + 0 + 0 + 163 := rfl
    have e' : (TLine.toAsm l).text = l.text := rfl
    rw [e, e']
    omega
  have hw := write_le (p.jsonDoc time)
  have h1 : ((p.jsonDoc time).lines.map fun l => l.weight + 2 * l.text.length).sum ≤
      150 * (p.lines.map fun l => l.text.length).sum + p.lines.length * (32 * s.length + 187) := by
    show ((p.lines.map TLine.toAsm).map _).sum ≤ _
    rw [List.map_map]
    refine Nat.le_trans (sums_le _ _ _ hline) ?_
    generalize p.lines = ls
    induction ls with
    | nil => exact Nat.zero_le _
    | cons l ls ih =>
      simp only [List.map_cons, List.sum_cons, List.length_cons, Nat.add_mul, Nat.one_mul, Nat.mul_add] at ih ⊢
      omega
  have h2 : ((p.jsonDoc time).labels.map fun e => 2 * e.1.length + e.2 + 7).sum ≤
      2 * (p.lines.map fun l => l.text.length).sum + p.lines.length * (1 + p.lines.length + 7) := by
    refine Nat.le_trans (redetermine_size p.lines 1) (Nat.add_le_add_right (Nat.le_trans (sums_le _ _ _ hlab) ?_) _)
    generalize p.lines = ls
    induction ls with
    | nil => exact Nat.zero_le _
    | cons l ls ih => simp only [List.map_cons, List.sum_cons] at ih ⊢; omega
  have h3 : (intToDec (p.jsonDoc time).filteredCount).length ≤ s.length + 3 := by
    obtain ⟨k, hk⟩ := Int.eq_ofNat_of_zero_le hc1
    rw [hk, intToDec_nat]
    have := natToDec_le k
    omega
  have e1 : p.lines.length * (32 * s.length + 187) ≤ (s.length + 2) * (32 * s.length + 187) := Nat.mul_le_mul_right _ hm
  have e2 : p.lines.length * (1 + p.lines.length + 7) ≤ (s.length + 2) * (s.length + 10) := Nat.mul_le_mul hm (by omega)
  have e3 : (s.length + 2) * (32 * s.length + 187) + (s.length + 2) * (s.length + 10) = 33 * s.length ^ 2 + 263 * s.length + 394 := by
    rw [← Nat.mul_add, Nat.pow_two, Nat.add_mul, Nat.mul_add, Nat.mul_add]
    generalize s.length = n
    have : n * (32 * n) = 32 * (n * n) := Nat.mul_left_comm n 32 n
    rw [Nat.mul_add, this]
    omega
  have e4 : (p.jsonDoc time).time = time := rfl
  rw [e4] at hw
  show (p.jsonDoc time).write.length ≤ _
  omega

/-- The sample has 292 characters. -/
example : ∃ p, TextResult Locale.utf8 {} sampleAsm p ∧ (p.outputJson 0).length > sampleAsm.length :=
  textRun_exists (P := fun p => (p.outputJson 0).length > sampleAsm.length) (by decide +kernel)

end AsmParser
