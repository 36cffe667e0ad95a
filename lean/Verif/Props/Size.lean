/-
Property C98: the length of the output.
-/
import Verif.Proofs.Size
import Verif.Proofs.BigJson
import Verif.Props.Decode
import Verif.Props.ObjLines
import Verif.Props.Lines
import Verif.Props.Sources
import Verif.Props.Usage
import Verif.Props.TextLive
import Verif.Spec.TextSamples

namespace AsmParser

attribute [local irreducible] Re.search Re.fullMatch

/-- C98 (partial): the text that text mode prints is at most eight times as long as its input, up to two characters, for all
filters.  Missing: the JSON output, see `C98_violation`. -/
theorem C98_text_partial (L : Locale) (f : Filter) (s : Str) (p : TParser) (h : TextResult L f s p) :
    p.outputText.length ≤ 8 * s.length + 2 := by
  have h1 := h.outcome.core
  have e : ∀ ls : List TLine, (ls.map TLine.core).map (·.text) = ls.map (·.text) := fun ls => by rw [List.map_map]; rfl
  have h2 := sizeOfTexts_sublist (h1.map (·.text))
  rw [e, e] at h2
  unfold TParser.outputText
  rw [sizeOfTexts_lines]
  exact Nat.le_trans h2 (read_size L f s)

/-- The factor cannot be improved: tabs are expanded. -/
example : ∃ p, TextResult Locale.utf8 {} (List.replicate 20 9 ++ b! "a\n") p ∧ p.outputText.length = 8 * 20 + 2 :=
  textRun_exists (P := fun p => p.outputText.length = 8 * 20 + 2) (by decide +kernel)

/-- C98 (partial): the text that binary mode prints is longer than its input by at most two characters for each line of the
output, of which there are at most 5001, and 26 characters for the marker.  The JSON output: `C98_json_binary_partial`. -/
theorem C98_binary_partial (L : Locale) (f : Filter) (s : Str) :
    (objParse L f s).outputText.length ≤ s.length + 2 * (objParse L f s).lines.length + 26 ∧
    (objParse L f s).outputText.length ≤ s.length + 10028 := by
  obtain ⟨ls, t, rfl, h1, h2⟩ := C73_all_inputs s
  obtain ⟨R, -, hR⟩ := C73_every_line L
  obtain ⟨e, -⟩ := hR f ls t h1 h2
  have hw := decode_within R (leftOut f.plt) f.libraryFunctions ls {} {} 0 (Nat.zero_le _)
  unfold Pages.Within at hw
  rw [← e] at hw
  have hs : sizeOfTexts ls ≤ (unlines ls ++ t).length := by
    rw [List.length_append]
    have : (unlines ls).length = sizeOfTexts ls := by
      have := sizeOfTexts_lines (fun l : Str => l) ls
      rw [List.map_id'] at this
      exact this
    omega
  have hx := excess_size (objParse L f (unlines ls ++ t)).lines
  have hc := (C01_output_capped L f (unlines ls ++ t)).1
  have ho : (objParse L f (unlines ls ++ t)).outputText.length =
      sizeOfTexts ((objParse L f (unlines ls ++ t)).lines.map (·.text)) := by
    unfold OParser.outputText
    rw [sizeOfTexts_lines]
  have hi : (if (decodeLines R (leftOut f.plt) f.libraryFunctions {} {} ls).full = true then 26 else 0) ≤ 26 := by split <;> omega
  rw [ho]
  omega

/-- A relocation becomes longer. -/
example : (objParse Locale.utf8 {} b! "0:R\n").outputText = b! "    R\n" := by decide +kernel

/-- C98 is violated for the JSON output of text mode: whatever the factor, for some input the output is longer by more than this
factor, since the name of the section is repeated for every line.  The input consists of a directive that selects a section and
of `n` instructions. -/
theorem C98_violation (L : Locale) (c : Nat) :
    ∃ n : Nat, ∃ s : Str, s = b! ".section " ++ List.replicate n c! 'a' ++ b! "\n" ++ (List.replicate n b! " ret\n").flatten ∧
      (∃ p, TextResult L {} s p) ∧
      ∀ p time, TextResult L {} s p → p.outputJsonUB = false ∧ c * s.length < (p.outputJson time).length := by
  refine ⟨6 * c + 10, sectListing (6 * c + 10), ?_, ?_, ?_⟩
  · unfold sectListing sectLines unlines sectLine
    rw [List.flatMap_cons]
    congr 1
    rw [List.flatten_eq_flatMap]
    have : ∀ k, ((List.replicate k b! " ret").flatMap fun l => l ++ [10]) = (List.replicate k b! " ret\n").flatMap id := by
      intro k
      induction k with
      | zero => rfl
      | succ k ih => rw [List.replicate_succ, List.replicate_succ, List.flatMap_cons, List.flatMap_cons, ih]; rfl
    exact this _
  · obtain ⟨n, ⟨p, v⟩, h⟩ := C41_no_data_partial L {} (sectListing (6 * c + 10)) Order.id [] (sect_no_data _)
    exact ⟨p, _, _, _, _, h⟩
  · intro p time h
    refine ⟨(C44_output_partial L {} _ p h).1 (.inl rfl), ?_⟩
    let n := 6 * c + 10
    have hn : n = 6 * c + 10 := rfl
    rw [← hn] at h ⊢
    letI := recognizers
    obtain ⟨zs, e1, -, h1⟩ := C61_sections_partial L {} _ p h
    obtain ⟨d, zs', -, e2, -, -, h3⟩ := C67_lines L {} _ p h
    have hlen : n + 1 ≤ zs'.length := by
      rw [← List.length_map (f := (·.2))]
      refine cover_length _ _ fun k hk => ?_
      rw [sect_seen] at h3
      have hk' : k < ((sectLines n).map fun l => ({ text := l } : Seen)).length := by simp [sectLines]; omega
      have hkept : Seen.Kept {} (((sectLines n).map fun l => ({ text := l } : Seen))[k]) := by
        rw [List.getElem_map]
        exact ⟨rfl, .inr (.inr (.inl rfl))⟩
      rcases h3 rfl k _ (List.getElem?_eq_getElem hk') hkept with ⟨z, hz, rfl⟩ | h3
      · exact List.mem_map_of_mem hz
      · exact absurd h3.1 (by simp)
    have hf : p.filter = {} := by
      obtain ⟨⟨us, ls, lines, fl, ub, e, -⟩⟩ := h.outcome
      rw [e]
      exact (readStream_inv L {} (fun _ => True) trivial (fun _ _ _ => trivial) (fun _ _ _ _ _ => trivial) _).2.1
    have hsect : ∀ l ∈ p.lines, l.text ≠ [] → l.sect.s = List.replicate n c! 'a' := by
      intro l hl ht
      have : l ∈ zs.map (·.1) := by rw [e1]; exact List.mem_filter.2 ⟨hl, by simpa using ht⟩
      obtain ⟨⟨l', k⟩, hz, rfl⟩ := List.mem_map.1 this
      have := (h1 _ _ hz).2
      rw [sect_seen] at this
      exact sect_at n k _ this
    have hw := write_size (p.jsonDoc time) n (by show p.filter.compatmode = false; rw [hf])
    have hcount : n + 1 ≤ ((p.jsonDoc time).lines.filter fun l => decide (n ≤ l.sect.length)).length := by
      refine Nat.le_trans hlen ?_
      rw [← List.length_map (f := (·.1)), e2]
      show _ ≤ ((p.lines.map TLine.toAsm).filter _).length
      rw [List.filter_map, List.length_map]
      refine (List.Sublist.length_le ?_)
      have : (p.lines.filter fun l => decide (l.text ≠ [])) =
          (p.lines.filter ((fun l : AsmLine => decide (n ≤ l.sect.length)) ∘ TLine.toAsm)).filter fun l => decide (l.text ≠ []) := by
        rw [List.filter_filter]
        refine List.filter_congr fun l hl => ?_
        by_cases ht : l.text = []
        · simp [ht]
        · have := hsect l hl ht
          have e : (TLine.toAsm l).sect = l.sect.s := rfl
          simp [ht, e, this]
      rw [this]
      exact List.filter_sublist
    have h5 : (n + 1) * n ≤ (p.outputJson time).length := Nat.le_trans (Nat.mul_le_mul_right n hcount) hw
    refine Nat.lt_of_lt_of_le ?_ h5
    rw [sectListing_size, hn]
    have e3 : (6 * c + 10 + 1) * (6 * c + 10) = 36 * (c * c) + 126 * c + 110 := by
      simp only [Nat.add_mul, Nat.mul_add, Nat.mul_assoc, Nat.mul_left_comm c, Nat.mul_comm c]
      omega
    have e4 : c * (6 * (6 * c + 10) + 10) = 36 * (c * c) + 70 * c := by
      rw [show 6 * (6 * c + 10) + 10 = 36 * c + 70 by omega, Nat.mul_add, Nat.mul_left_comm, Nat.mul_comm c 70]
    omega

end AsmParser
