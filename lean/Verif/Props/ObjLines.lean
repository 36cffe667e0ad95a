/-
Properties C01-C05, C09-C13, C53 of binary mode: which lines and label definitions are output.
`objParse L f s` is the parser after reading the byte string `s` (`Verif/Spec/Objdump.lean`).
-/
import Verif.Proofs.ObjWitness
import Verif.Proofs.Chunks
import Verif.Proofs.ObjLibrary
import Verif.Spec.Samples

namespace AsmParser

/-! ### C01 -/

/-- C01: at most 5001 lines; if 5001, the last is the marker and the rest of the input has no effect at all. -/
theorem C01_output_capped (L : Locale) (f : Filter) (s : Str) :
    (objParse L f s).lines.length ≤ 5001 ∧
    ((objParse L f s).lines.length = 5001 →
      ((objParse L f s).lines.getLast?.map (·.text) = some b! "[truncated; too many lines]" ∧
       ∀ t, objParse L f (s ++ t) = objParse L f s)) := by
  have h := Good.parse L f s
  cases hs : (objParse L f s).st.stopParsing
  · have := h.cap hs
    exact ⟨by omega, fun h => by omega⟩
  · have := h.marker hs
    refine ⟨by omega, fun _ => ⟨by rw [this.2]; rfl, fun t => ?_⟩⟩
    rw [objParse_append, foldl_stop hs]

/-- The cap is reached by an input (for every locale and filter). -/
example (L : Locale) (f : Filter) : (objParse L f (xLines 5000 ++ b! ":x\n")).lines.length = 5001 := by
  rw [objParse_capped, List.length_append, List.length_replicate]; rfl

/-- The marker only ever appears when the cap was hit, and then text, JSON and label definitions of
every longer input are those of `s`. -/
theorem C01_outputs_fixed (L : Locale) (f : Filter) (s t : Str)
    (h : (objParse L f s).lines.length = 5001) (time : Int) :
    (objParse L f (s ++ t)).outputText = (objParse L f s).outputText ∧
    (objParse L f (s ++ t)).outputJson time = (objParse L f s).outputJson time := by
  rw [((C01_output_capped L f s).2 h).2 t]; exact ⟨rfl, rfl⟩

/-! ### C02 -/

/-- C02 (partial): an entry `(name, n)` of labelDefinitions says that output line `n` is the label line
`name:`.  Missing: outputs that hit the cap, see `C02_with_cap` and `C02_violation`. -/
theorem C02_label_definitions_point_at_labels_partial (L : Locale) (f : Filter) (s : Str)
    (hcap : (objParse L f s).lines.length ≤ 5000) (name : Str) (n : Nat)
    (h : (name, n) ∈ (objParse L f s).labels) :
    1 ≤ n ∧ ∃ l, (objParse L f s).lines[n - 1]? = some l ∧ l.isLabel = true ∧ l.label = name ∧
      l.text = name ++ b! ":" := by
  have hg := Good.parse L f s
  have hs : (objParse L f s).st.stopParsing = false := by
    cases hs : (objParse L f s).st.stopParsing
    · rfl
    · have := (hg.marker hs).1; omega
  rw [hg.table hs] at h
  obtain ⟨h1, l, h2, h3, h4⟩ := labelTable_mem h
  refine ⟨h1, l, h2, h3, h4, ?_⟩
  rw [← h4]; exact hg.text l (List.mem_of_getElem? h2) h3

/-- The hypotheses hold for a listing with four functions. -/
example : (objParse Locale.utf8 {} sampleObj).labels = [(b! "main", 1), (b! "f", 4), (b! "h", 6), (b! "g", 8)] ∧
    (objParse Locale.utf8 {} sampleObj).lines.length = 9 := by decide +kernel

/-- C02, what remains true at the cap: only an entry for line 5001 can be wrong. -/
theorem C02_with_cap (L : Locale) (f : Filter) (s : Str) (name : Str) (n : Nat)
    (h : (name, n) ∈ (objParse L f s).labels) :
    1 ≤ n ∧ n ≤ (objParse L f s).lines.length ∧
    (n ≤ 5000 → ∃ l, (objParse L f s).lines[n - 1]? = some l ∧ l.isLabel = true ∧ l.label = name ∧
      l.text = name ++ b! ":") := by
  have hg := Good.parse L f s
  have key : (name, n) ∈ labelTable 1 (objParse L f s).lines →
      1 ≤ n ∧ n ≤ (objParse L f s).lines.length ∧
      (n ≤ 5000 → ∃ l, (objParse L f s).lines[n - 1]? = some l ∧ l.isLabel = true ∧ l.label = name ∧
        l.text = name ++ b! ":") := by
    intro h
    have hlt := (labelTable_lt h).2
    obtain ⟨h1, l, h2, h3, h4⟩ := labelTable_mem h
    refine ⟨h1, by omega, fun _ => ⟨l, h2, h3, h4, ?_⟩⟩
    rw [← h4]; exact hg.text l (List.mem_of_getElem? h2) h3
  cases hs : (objParse L f s).st.stopParsing
  · rw [hg.table hs] at h; exact key h
  · rcases hg.tableS hs with e | ⟨m, e⟩
    · rw [e] at h; exact key h
    · rw [e] at h
      simp only [List.mem_append, List.mem_singleton] at h
      rcases h with h | h
      · exact key h
      · have := (hg.marker hs).1
        cases h
        exact ⟨by omega, by omega, fun h => by omega⟩

/-- C02 is violated: a function header on line 5001 is entered although its line is not output. -/
theorem C02_violation (L : Locale) : ∃ (f : Filter) (s : Str) (name : Str) (n : Nat),
    (name, n) ∈ (objParse L f s).labels ∧
    ∀ l, (objParse L f s).lines[n - 1]? = some l → l.isLabel = false ∧ l.text ≠ name ++ b! ":" := by
  obtain ⟨h1, h2⟩ := objParse_cappedLabel L {} rfl
  refine ⟨{}, xLines 5000 ++ b! "0 <f>:\n", b! "f", 5001, ?_, ?_⟩
  · rw [h2]; simp
  · intro l
    rw [h1, List.getElem?_append_right (by rw [List.length_replicate]; decide), List.length_replicate]
    rintro ⟨⟩
    decide

/-! ### C03 -/

/-- C03 (partial): below the cap labelDefinitions is exactly the list of label lines with their numbers.
Missing: the cap (`C03_with_cap`). -/
theorem C03_label_definitions_exact_partial (L : Locale) (f : Filter) (s : Str)
    (hcap : (objParse L f s).lines.length ≤ 5000) :
    (objParse L f s).labels = labelTable 1 (objParse L f s).lines := by
  have hg := Good.parse L f s
  cases hs : (objParse L f s).st.stopParsing
  · exact hg.table hs
  · have := (hg.marker hs).1; omega

/-- C03 with the cap: possibly one extra entry, for line 5001. -/
theorem C03_with_cap (L : Locale) (f : Filter) (s : Str) :
    (objParse L f s).labels = labelTable 1 (objParse L f s).lines ∨
    (objParse L f s).lines.length = 5001 ∧
      ∃ n, (objParse L f s).labels = labelTable 1 (objParse L f s).lines ++ [(n, 5001)] := by
  have hg := Good.parse L f s
  cases hs : (objParse L f s).st.stopParsing
  · exact .inl (hg.table hs)
  · rcases hg.tableS hs with h | h
    · exact .inl h
    · exact .inr ⟨(hg.marker hs).1, h⟩

/-- C03 is violated at the cap: a function header on line 5001 is entered although no output line is a label. -/
theorem C03_violation (L : Locale) : ∃ (f : Filter) (s : Str),
    (objParse L f s).labels = [(b! "f", 5001)] ∧ labelTable 1 (objParse L f s).lines = [] := by
  obtain ⟨h1, h2⟩ := objParse_cappedLabel L {} rfl
  refine ⟨{}, xLines 5000 ++ b! "0 <f>:\n", ?_, ?_⟩
  · rw [h2]
  · rw [h1, List.eq_nil_iff_forall_not_mem]
    rintro ⟨name, n⟩ h
    obtain ⟨-, l, h3, h4, -⟩ := labelTable_mem h
    have := List.mem_of_getElem? h3
    rw [List.mem_append, List.mem_replicate] at this
    rcases this with ⟨-, rfl⟩ | h5
    · cases h4
    · rw [List.mem_singleton.1 h5] at h4; cases h4

/-- C03: the line numbers are strictly increasing (in particular no line is entered twice), always. -/
theorem C03_strictly_increasing (L : Locale) (f : Filter) (s : Str) :
    (objParse L f s).labels.Pairwise (fun a b => a.2 < b.2) := by
  have hg := Good.parse L f s
  cases hs : (objParse L f s).st.stopParsing
  · rw [hg.table hs]; exact labelTable_pairwise _ _
  · rcases hg.tableS hs with h | ⟨n, h⟩
    · rw [h]; exact labelTable_pairwise _ _
    · rw [h, List.pairwise_append]
      refine ⟨labelTable_pairwise _ _, by simp, ?_⟩
      intro a ha b hb
      simp only [List.mem_singleton] at hb
      subst hb
      obtain ⟨h0, l, h1, h2, -⟩ := labelTable_mem (name := a.1) (i := a.2) ha
      have hlen := (hg.marker hs).1
      have hlt := (labelTable_lt (name := a.1) (i := a.2) ha).2
      have hne : a.2 ≠ 5001 := by
        intro e
        have hl := (hg.marker hs).2
        rw [List.getLast?_eq_getElem?, hlen] at hl
        rw [e] at h1
        rw [hl] at h1
        cases h1
        simp [markerLine] at h2
      simp only
      omega

/-! ### C04 -/

/-- C04: removing carriage returns changes nothing (the whole parser state is the same). -/
theorem C04_cr_ignored (L : Locale) (f : Filter) (s t : Str)
    (h : s.filter (· != 13) = t.filter (· != 13)) : objParse L f s = objParse L f t := by
  rw [objParse_eq, objParse_eq, ← foldl_cr, h, foldl_cr]

/-- For instance CRLF versus LF. -/
example : (b! "a <f>:\r\n 1:\tc3  \tret\r\n").filter (· != 13) = (b! "a <f>:\n 1:\tc3  \tret\n").filter (· != 13) := by
  decide

/-! ### C05 -/

/-- C05: below the cap the filtered count is the number of input newlines minus the number of output lines. -/
theorem C05_filtered_count (L : Locale) (f : Filter) (s : Str) (time : Int)
    (hcap : (objParse L f s).lines.length ≤ 5000) :
    ((objParse L f s).jsonDoc time).filteredCount =
      (newlines s : Int) - ((objParse L f s).lines.length : Int) := by
  have hg := Good.parse L f s
  obtain ⟨u, v, h1, h2, -, h3⟩ := total_parse L f s
  have hs : (objParse L f s).st.stopParsing = false := by
    cases hs : (objParse L f s).st.stopParsing
    · rfl
    · have := (hg.marker hs).1; omega
  have := h3 hs
  subst this
  simp only [List.append_nil] at h1
  subst h1
  simp [OParser.jsonDoc, JsonDoc.filteredCount, h2]

example : ((objParse Locale.utf8 {} sampleObj).jsonDoc 0).filteredCount = 23 - 9 ∧ newlines sampleObj = 23 := by
  decide +kernel

/-- C05, with or without the cap: the count refers to the part `u` of the input that was consumed, the rest
of the input is irrelevant, and the count is never negative. -/
theorem C05_filtered_count_consumed (L : Locale) (f : Filter) (s : Str) (time : Int) :
    0 ≤ ((objParse L f s).jsonDoc time).filteredCount ∧
    ∃ u v, s = u ++ v ∧ objParse L f u = objParse L f s ∧
      ((objParse L f s).jsonDoc time).filteredCount =
        (newlines u : Int) - ((objParse L f s).lines.length : Int) := by
  have hg := Good.parse L f s
  obtain ⟨u, v, h1, h2, h3, -⟩ := total_parse L f s
  have := hg.count
  refine ⟨?_, u, v, h1, h3.symm, ?_⟩
  · simp [OParser.jsonDoc, JsonDoc.filteredCount]; omega
  · simp [OParser.jsonDoc, JsonDoc.filteredCount, h2]

/-! ### C09 -/

/-- C09: with `library_functions`, between any two consecutive label definitions (i.e. in every function but
the last one) there is a line attributed to user code. -/
theorem C09_library_functions_removed (L : Locale) (f : Filter) (hf : f.libraryFunctions = true) (s : Str)
    (A B : List LabelPair) (n m : Str) (i j : Nat)
    (h : (objParse L f s).labels = A ++ (n, i) :: (m, j) :: B) :
    ∃ k l, i ≤ k ∧ k < j ∧ (objParse L f s).lines[k - 1]? = some l ∧ l.source.isUsercode = true := by
  have hi : 1 ≤ i := (C02_with_cap L f s n i (by rw [h]; simp)).1
  obtain ⟨⟨l, hl, hu⟩, -⟩ := enclosed_parse L f hf s A B n i m j h
  obtain ⟨k, hk, rfl⟩ := List.mem_iff_getElem.1 hl
  simp only [seg, List.length_drop, List.length_take] at hk
  refine ⟨i + k, _, by omega, by omega, ?_, hu⟩
  simp only [seg, List.getElem_drop, List.getElem_take]
  rw [List.getElem?_eq_getElem (by omega)]
  congr 2; omega

/-- The library function `h` of the sample goes away. -/
example : (objParse Locale.utf8 { libraryFunctions := true } sampleObj).labels =
    [(b! "main", 1), (b! "f", 4), (b! "g", 6)] := by
  decide +kernel

/-! ### C10 -/

/-- C10: turning `library_functions` on only removes lines, and none that is attributed to user code. -/
theorem C10_user_code_kept (L : Locale) (f : Filter) (hf : f.libraryFunctions = false) (s : Str)
    (hcap : (objParse L f s).lines.length ≤ 5000) :
    (objParse L { f with libraryFunctions := true } s).lines.Sublist (objParse L f s).lines ∧
    (objParse L { f with libraryFunctions := true } s).lines.filter (·.source.isUsercode) =
      (objParse L f s).lines.filter (·.source.isUsercode) ∧
    ((objParse L { f with libraryFunctions := true } s).labels.map (·.1)).Sublist
      ((objParse L f s).labels.map (·.1)) := by
  have h := sim_parse L f hf s hcap
  exact ⟨h.sub, h.user, h.names⟩

/-- In the sample, seven of the nine lines stay, four of them attributed to user code. -/
example : (objParse Locale.utf8 { libraryFunctions := true } sampleObj).lines.length = 7 ∧
    ((objParse Locale.utf8 {} sampleObj).lines.filter (·.source.isUsercode)).length = 4 := by decide +kernel

/-! ### C53 -/

/-- C53: what "attributed to user code" means: a line with a source file is user code exactly if the file is
not below one of the library directories; a user-code line is never in a library. -/
theorem C53_user_code_iff (L : Locale) (f : Filter) (s : Str) (l : AsmLine) (hl : l ∈ (objParse L f s).lines) :
    (l.source.isUsercode = true → inLibrary l.source.file = false) ∧
    (l.source.file ≠ [] → (l.source.isUsercode = true ↔ inLibrary l.source.file = false)) := by
  rw [← fileInLibrary_eq]
  rcases (SrcInv.parse L f s).lines l hl with h | h
  · rw [h]; simp
  · rw [h]; simp

/-- Both cases occur. -/
example : ((objParse Locale.utf8 {} sampleObj).lines.map (·.source.isUsercode)) =
    [false, true, true, true, false, false, false, false, true] := by decide +kernel

/-! ### C54 -/

/-- C54 (partial): with `library_functions`, every function but the last one has an *instruction* line that is
attributed to user code, if its label line is not itself attributed to user code.  Missing: the label line
carries the source reference of the preceding function, see `C54_violation`. -/
theorem C54_library_function_removed_partial (L : Locale) (f : Filter) (hf : f.libraryFunctions = true) (s : Str)
    (A B : List LabelPair) (n m : Str) (i j : Nat)
    (h : (objParse L f s).labels = A ++ (n, i) :: (m, j) :: B)
    (hl : ∀ l, (objParse L f s).lines[i - 1]? = some l → l.source.isUsercode = false) :
    ∃ k l, i < k ∧ k < j ∧ (objParse L f s).lines[k - 1]? = some l ∧ l.source.isUsercode = true := by
  obtain ⟨k, l, h1, h2, h3, h4⟩ := C09_library_functions_removed L f hf s A B n m i j h
  refine ⟨k, l, ?_, h2, h3, h4⟩
  rcases Nat.eq_or_lt_of_le h1 with e | e
  · subst e; rw [hl l h3] at h4; cases h4
  · exact e

/-- In the sample this applies to `main`. -/
example : ((objParse Locale.utf8 { libraryFunctions := true } sampleObj).lines[0]?.map (·.source.isUsercode)) =
    some false := by decide +kernel

/-- C54 is violated: the library function `f`, whose only instruction is attributed to `/usr/include/x.h`,
stays because it follows the user function `main`. -/
theorem C54_violation : ∃ (s : Str) (A B : List LabelPair) (n m : Str) (i j : Nat),
    (objParse Locale.utf8 { libraryFunctions := true } s).labels = A ++ (n, i) :: (m, j) :: B ∧
    i + 1 < j ∧
    ∀ l ∈ ((objParse Locale.utf8 { libraryFunctions := true } s).lines.take (j - 1)).drop i,
      l.source.isUsercode = false :=
  ⟨sampleObj, [(b! "main", 1)], [], b! "f", b! "g", 4, 6, by decide +kernel, by decide, by decide +kernel⟩

/-! ### C11 -/

/-- C11: reading a listing in chunks that end at line boundaries, with one `fromStream` call per chunk, gives
the same lines and label definitions (hence the same text) as reading it at once. -/
theorem C11_chunked (L : Locale) (f : Filter) (chunks : List Str) (t : Str)
    (h : ∀ c ∈ chunks, c.getLast? = some 10) :
    ((chunks.foldl (OParser.fromStream L) (OParser.init f)).fromStream L t).lines =
      (objParse L f (chunks.flatten ++ t)).lines ∧
    ((chunks.foldl (OParser.fromStream L) (OParser.init f)).fromStream L t).labels =
      (objParse L f (chunks.flatten ++ t)).labels := by
  obtain ⟨k, e⟩ := chunked_eq L f chunks t h
  rw [e]
  exact ⟨rfl, rfl⟩

/-- Two chunks, the second starting in the middle of a function. -/
example : ∀ c ∈ [b! "0 <f>:\n", b! " 1:\tc3  \tret\n"], c.getLast? = some 10 := by decide

/-! ### C84 -/

/-- C84 (partial): after reading a listing in several calls `filteredCount` is the number of lines of the last chunk, minus the
number of all lines that are output (if the output is not truncated).  So it accounts for all lines exactly if the chunks before
the last one have none (`C84_violation`). -/
theorem C84_count_partial (L : Locale) (f : Filter) (chunks : List Str) (t : Str) (time : Int)
    (h : ∀ c ∈ chunks, c.getLast? = some 10) (hcap : (objParse L f (chunks.flatten ++ t)).lines.length ≤ 5000) :
    (((chunks.foldl (OParser.fromStream L) (OParser.init f)).fromStream L t).jsonDoc time).filteredCount =
      (newlines t : Int) - (objParse L f (chunks.flatten ++ t)).lines.length ∧
    ((((chunks.foldl (OParser.fromStream L) (OParser.init f)).fromStream L t).jsonDoc time).filteredCount =
      ((objParse L f (chunks.flatten ++ t)).jsonDoc time).filteredCount ↔ chunks = []) := by
  obtain ⟨k, e⟩ := chunked_eq L f chunks t h
  have hg := Good.parse L f (chunks.flatten ++ t)
  have hs : (objParse L f (chunks.flatten ++ t)).st.stopParsing = false := by
    cases hs : (objParse L f (chunks.flatten ++ t)).st.stopParsing
    · rfl
    · have := (hg.marker hs).1; omega
  have hk : k = newlines t := by
    have ht : ((chunks.foldl (OParser.fromStream L) (OParser.init f)).fromStream L t).totalLines = newlines t := by
      unfold OParser.fromStream at e ⊢
      rw [fold_total L t _ (by rw [e]; exact hs)]
      simp
    rw [e] at ht
    exact ht
  subst hk
  have h1 : (((chunks.foldl (OParser.fromStream L) (OParser.init f)).fromStream L t).jsonDoc time).filteredCount =
      (newlines t : Int) - (objParse L f (chunks.flatten ++ t)).lines.length := by
    rw [e]
    simp [OParser.jsonDoc, JsonDoc.filteredCount, OParser.setTot]
  refine ⟨h1, ?_⟩
  rw [h1, C05_filtered_count L f _ time hcap, newlines, newlines, List.count_append]
  constructor
  · intro hz
    cases chunks with
    | nil => rfl
    | cons c cs =>
      have : 0 < c.count 10 := by
        obtain ⟨u, rfl⟩ := List.getLast?_eq_some_iff.1 (h c (by simp))
        simp
      rw [List.flatten_cons, List.count_append] at hz
      omega
  · rintro rfl; simp

/-- C84 fails: two lines are read in two calls and both are shown, but the JSON output says that -1 lines were left out. -/
theorem C84_violation : ∃ p, p = [b! "0 <f>:\n", b! " 1:\tc3  \tret\n"].foldl (OParser.fromStream Locale.utf8) (OParser.init {}) ∧
    p.lines.map (·.text) = [b! "f:", b! " ret"] ∧ (p.jsonDoc 0).filteredCount = -1 :=
  ⟨_, rfl, by decide +kernel, by decide +kernel⟩

example : (∀ c ∈ [b! "0 <f>:\n"], c.getLast? = some 10) ∧
    (objParse Locale.utf8 {} ([b! "0 <f>:\n"].flatten ++ b! " 1:\tc3  \tret\n")).lines.length ≤ 5000 := by decide +kernel

/-! ### C12 -/

/-- C12: without `library_functions` a longer input only appends. -/
theorem C12_append_only (L : Locale) (f : Filter) (hf : f.libraryFunctions = false) (s t : Str) :
    (objParse L f s).lines <+: (objParse L f (s ++ t)).lines ∧
    (objParse L f s).labels <+: (objParse L f (s ++ t)).labels := by
  rw [objParse_append]
  exact fold_prefix L t _ (by rw [parse_filter]; exact hf)

/-- With `library_functions` this fails: the next header removes the library function before it. -/
example : ∃ s t, ¬ (objParse Locale.utf8 { libraryFunctions := true } s).labels <+:
    (objParse Locale.utf8 { libraryFunctions := true } (s ++ t)).labels :=
  ⟨b! "0 <f>:\n", b! "1 <g>:\n", by decide +kernel⟩

/-! ### C13 -/

/-- C13: an unterminated last line contributes nothing. -/
theorem C13_unterminated_line (L : Locale) (f : Filter) (s t : Str) (h : (10 : Byte) ∉ t) :
    (objParse L f (s ++ t)).lines = (objParse L f s).lines ∧
    (objParse L f (s ++ t)).labels = (objParse L f s).labels ∧
    (objParse L f (s ++ t)).totalLines = (objParse L f s).totalLines := by
  rw [objParse_append]; exact fold_noeol h _

/-- For instance an instruction without newline. -/
example : (10 : Byte) ∉ b! "    1040:	c3                   	ret" := by decide

end AsmParser
