/-
Property C98: the length of the JSON output of binary mode.
-/
import Verif.Proofs.ObjJsonSize
import Verif.Proofs.BigBinary

namespace AsmParser

attribute [local irreducible] Re.search Re.fullMatch

/-- C98 (partial): the JSON output of binary mode is at most about 55 times the square of the length of the input, for all filters.
Missing: a linear bound, see `C98_violation_binary`. -/
theorem C98_json_binary_partial (L : Locale) (f : Filter) (s : Str) (time : Int) :
    ((objParse L f s).outputJson time).length ≤ 55 * s.length ^ 2 + 340 * s.length + 100 + (intToDec time).length := by
  have h := slim_parse L f s
  generalize hp : objParse L f s = p at h
  generalize s.length = k at h
  have h0 := write_le (p.jsonDoc time)
  have h1 : ((p.jsonDoc time).lines.map fun l => l.weight + 2 * l.text.length).sum ≤
      p.lines.length * (38 * k + 252) + refsCount p.lines * (8 * k + 72) := by
    have e : (p.jsonDoc time).lines = p.lines.map AsmLine.toView := rfl
    rw [e, List.map_map]
    have hw : ∀ l ∈ p.lines, ((fun l : AsmLine => l.weight + 2 * l.text.length) ∘ AsmLine.toView) l ≤
        (fun l : AsmLine => 38 * k + 252 + l.labels.length * (8 * k + 72)) l := fun l hl => (h.lines l hl).weight
    generalize ((fun l : AsmLine => l.weight + 2 * l.text.length) ∘ AsmLine.toView) = w at hw ⊢
    have hs := sums_le w (fun l : AsmLine => 38 * k + 252 + l.labels.length * (8 * k + 72)) p.lines hw
    refine Nat.le_trans hs ?_
    clear hs hw e h0 h
    unfold refsCount
    generalize p.lines = ls
    induction ls with
    | nil => exact Nat.zero_le _
    | cons l ls ih =>
      simp only [List.map_cons, List.sum_cons, List.length_cons, Nat.add_mul, Nat.one_mul] at ih ⊢
      omega
  have h2 : ((p.jsonDoc time).labels.map fun e => 2 * e.1.length + e.2 + 7).sum ≤ p.labels.length * (9 * k + 8) := by
    refine Nat.le_trans (sums_le _ (fun _ => 9 * k + 8) _ fun d hd => ?_) ?_
    · have := h.names d hd
      omega
    · rw [List.map_const', List.sum_replicate_nat]; exact Nat.le_refl _
  have h3 : (intToDec (p.jsonDoc time).filteredCount).length ≤ k + 2 := by
    have a1 := h.total
    have a2 := h.count
    have e : (p.jsonDoc time).filteredCount = (p.totalLines : Int) - p.lines.length := by
      simp [OParser.jsonDoc, JsonDoc.filteredCount]
    rw [e]
    have := natToDec_le ((p.totalLines : Int) - p.lines.length).natAbs
    unfold intToDec
    split
    · rw [List.length_cons]; omega
    · omega
  have e1 : p.lines.length * (38 * k + 252) ≤ k * (38 * k + 252) := Nat.mul_le_mul_right _ h.count
  have e2 : refsCount p.lines * (8 * k + 72) ≤ k * (8 * k + 72) := Nat.mul_le_mul_right _ (Nat.le_trans (Nat.le_add_right _ _) h.refs)
  have e3 : p.labels.length * (9 * k + 8) ≤ k * (9 * k + 8) := Nat.mul_le_mul_right _ h.labels
  have e4 : k * (38 * k + 252) + k * (8 * k + 72) + k * (9 * k + 8) = 55 * k ^ 2 + 332 * k := by
    rw [← Nat.mul_add, ← Nat.mul_add, Nat.pow_two, show 38 * k + 252 + (8 * k + 72) + (9 * k + 8) = 55 * k + 332 by omega, Nat.mul_add,
      Nat.mul_left_comm, Nat.mul_comm k 332]
  have e5 : (p.jsonDoc time).time = time := rfl
  rw [e5] at h0
  show (p.jsonDoc time).write.length ≤ _
  omega

/-- The output is longer than the input. -/
example : ((objParse Locale.utf8 {} b! "0:R\n").outputJson 0).length > 4 := by decide +kernel

/-! ### No linear bound -/

/-- C98 is violated for the JSON output of binary mode, too: whatever the factor, for some input the output is longer by more than
this factor.  The columns are counted in characters up to the first byte that belongs to none, but the names are cut out of the
text by bytes, so that after such a byte every pair of angle brackets refers to the whole text before it. -/
theorem C98_violation_binary (c : Nat) :
    ∃ n : Nat, ∃ s : Str, s = b! "0:" ++ [255] ++ (List.replicate n b! "<>").flatten ++ b! "\n" ∧
      (objParse Locale.utf8 {} s).st.ub = false ∧
      ∀ time, c * s.length < ((objParse Locale.utf8 {} s).outputJson time).length := by
  refine ⟨2 * c + 4, _, rfl, ?_, fun time => ?_⟩
  · show (objParse Locale.utf8 {} (b! "0:" ++ [255] ++ angles (2 * c + 4) ++ b! "\n")).st.ub = false
    rw [angles_parse]
    rfl
  · show c * (b! "0:" ++ [255] ++ angles (2 * c + 4) ++ b! "\n").length <
      ((objParse Locale.utf8 {} (b! "0:" ++ [255] ++ angles (2 * c + 4) ++ b! "\n")).outputJson time).length
    have hlen : (b! "0:" ++ [255] ++ angles (2 * c + 4) ++ b! "\n").length = 4 * c + 12 := by
      simp only [List.length_append, angles_length, List.length_cons, List.length_nil]
      omega
    rw [angles_parse, hlen]
    generalize hl : (ffState (255 :: angles (2 * c + 4)) (anglesRefs (2 * c + 4))).finishLine = l
    have h1 := refs_size {} l.toView
    have h2 : (l.toView.labels.map fun r => r.name.length).sum = (2 * c + 4) * (2 * c + 4) := by
      rw [← anglesRefs_size, ← hl]
      show (((anglesRefs (2 * c + 4)).map fun r => ({ r with startCol := addCols r.startCol, endCol := addCols r.endCol } : AsmLabel)).map
        fun r => r.name.length).sum = _
      rw [List.map_map]
      rfl
    have h3 : c * (4 * c + 12) < (2 * c + 4) * (2 * c + 4) := by
      have e1 : c * (4 * c + 12) = 4 * (c * c) + 12 * c := by rw [Nat.mul_add, Nat.mul_left_comm, Nat.mul_comm c 12]
      have e2 : (2 * c + 4) * (2 * c + 4) = 4 * (c * c) + 16 * c + 16 := by
        rw [Nat.add_mul, Nat.mul_add, Nat.mul_add, Nat.mul_mul_mul_comm]
        omega
      omega
    rw [h2] at h1
    refine Nat.lt_of_lt_of_le h3 (Nat.le_trans h1 ?_)
    show _ ≤ (JsonDoc.write _).length
    unfold JsonDoc.write OParser.jsonDoc
    simp only [List.map_cons, List.map_nil, sepBy, List.length_append]
    omega

end AsmParser
