/-
Properties C07 and C15 of binary mode: label references and opcode tokens of the output lines.
-/
import Verif.Proofs.ObjRefs
import Verif.Spec.Samples

namespace AsmParser

/-! ### C07 -/

/-- C07 (partial): in an output line of ASCII characters the columns of a label reference cut the referenced name
out of the line's text.  Missing: lines with other characters (`C07_violation`), and lines of more than 65534
characters, where the 16-bit columns wrap around. -/
theorem C07_reference_columns_partial (L : Locale) (hL : L.Ascii) (f : Filter) (s : Str) (l : AsmLine)
    (hl : l ∈ (objParse L f s).lines) (ha : asciiStr l.text) (hlen : l.text.length ≤ 65534)
    (r : AsmLabel) (hr : r ∈ l.labels) :
    1 ≤ r.startCol ∧ r.startCol ≤ r.endCol ∧ r.endCol - 1 ≤ l.text.length ∧
    (l.text.drop (r.startCol - 1)).take (r.endCol - r.startCol) = r.name := by
  rcases refs_parse L f s l hl with h | ⟨t, ht, h⟩
  · rw [h] at hr; cases hr
  · obtain ⟨r', ⟨e, h1, h2, h3, h4⟩, h5, h6, h7⟩ := h r hr
    have hat : asciiStr (t.take e) := fun c hc => ha c (by rw [ht]; simp [List.mem_of_mem_take hc])
    rw [ustrlen_ascii hL hat, List.length_take, Nat.min_eq_left h2] at h4
    have hl' : t.length + 1 ≤ 65534 := by rw [ht] at hlen; simpa using hlen
    have e1 : r.startCol = r'.startCol + 2 := by rw [h6, addCols, Nat.mod_eq_of_lt]; omega
    have e2 : r.endCol = e + 2 := by rw [h7, addCols, h4, Nat.mod_eq_of_lt (b := 65536)] <;> omega
    refine ⟨by omega, by omega, by rw [ht]; simp; omega, ?_⟩
    rw [e1, e2, h5, h3, ht]
    have : r'.startCol + 2 - 1 = r'.startCol + 1 := by omega
    rw [this, List.drop_succ_cons, List.drop_take]
    congr 1
    omega

/-- A line with one reference, in the columns where it stands. -/
example : (objParse Locale.utf8 {} sampleObj).lines[2]?.map (fun l => (l.text, l.labels)) =
      some (b! " call   1030 <f>", [⟨b! "f", 15, 16⟩]) ∧
    Locale.utf8.Ascii := ⟨by decide +kernel, Locale.utf8_ascii⟩

/-- C07 is violated behind a multibyte character: the name begins with `<` and is not what the columns denote. -/
theorem C07_violation : ∃ (f : Filter) (s : Str) (l : AsmLine) (r : AsmLabel),
    l ∈ (objParse Locale.utf8 f s).lines ∧ r ∈ l.labels ∧ r.name = b! "<f" ∧
    (l.text.drop (r.startCol - 1)).take (r.endCol - r.startCol) ≠ r.name := by
  refine ⟨{}, b! "1:é <f>\n", { text := b! " é <f>", labels := [⟨b! "<f", 5, 6⟩], address := some 1 },
    ⟨b! "<f", 5, 6⟩, ?_⟩
  decide +kernel

/-! ### C15 -/

/-- C15 (partial): every opcode token is a non-empty string of lower-case hexadecimal digits and tabs.  The tabs are
what is missing; `C15_opcode_tokens_no_tab` says when there are none. -/
theorem C15_opcode_tokens_partial (L : Locale) (f : Filter) (s : Str) :
    ∀ l ∈ (objParse L f s).lines, ∀ o ∈ l.opcodes, o ≠ [] ∧ ∀ c ∈ o, isHex c = true ∨ c = 9 :=
  opcodes_parse (Q := fun c => isHex c = true ∨ c = 9) (fun _ h => .inl h) s (fun _ _ _ _ _ _ => .inr rfl)

/-- C15: if no tab directly follows a hexadecimal digit (as in what objdump prints), all opcode tokens are
non-empty strings of lower-case hexadecimal digits. -/
theorem C15_opcode_tokens_no_tab (L : Locale) (f : Filter) (s : Str)
    (h : ∀ d, isHex d = true → ¬ [d, 9] <:+: s.filter (· != 13)) :
    ∀ l ∈ (objParse L f s).lines, ∀ o ∈ l.opcodes, o ≠ [] ∧ ∀ c ∈ o, isHex c = true := by
  refine opcodes_parse (Q := fun c => isHex c = true) (fun _ h => h) s ?_
  intro t d hp hd hx _
  exfalso
  refine h d hx ?_
  obtain ⟨u, rfl⟩ := hp
  obtain ⟨v, hv⟩ := List.getLast?_eq_some_iff.1 hd
  refine ⟨v, u.filter (· != 13), ?_⟩
  simp [List.filter_append, hv]

/-- The sample listing meets the hypothesis and has opcodes. -/
example : (∀ d, isHex d = true → ¬ [d, 9] <:+: sampleObj.filter (· != 13)) ∧
    (objParse Locale.utf8 {} sampleObj).lines.map (·.opcodes) =
      [[], [b! "55"], [b! "e8", b! "00", b! "00", b! "00", b! "00"], [], [b! "c3"], [], [b! "c3"], [], [b! "c3"]] := by
  refine ⟨?_, by decide +kernel⟩
  intro d hd
  have : ∀ i : Fin 256, isHex (UInt8.ofFin i) = true → ¬ [UInt8.ofFin i, 9] <:+: sampleObj.filter (· != 13) := by
    decide +kernel
  exact this d.toFin hd

/-- C15 is violated: a tab right behind a digit becomes part of an opcode token. -/
theorem C15_violation : ∃ l ∈ (objParse Locale.utf8 {} b! "1: 55\t5  x\n").lines, ∃ o ∈ l.opcodes, (9 : Byte) ∈ o :=
  ⟨{ text := b! " x", opcodes := [b! "55\t5"], address := some 1 }, by decide +kernel, b! "55\t5", by decide, by decide⟩

end AsmParser
