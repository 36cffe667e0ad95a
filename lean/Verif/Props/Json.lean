/-
Properties C19-C23: the JSON output.  `readJson` (`Verif/Spec/Json.lean`) is a reader for RFC 8259 JSON texts;
`documentJson` is the JSON value a document stands for.
-/
import Verif.Proofs.Json
import Verif.Proofs.ObjChars
import Verif.Props.ObjText
import Verif.Proofs.ObjRead
import Verif.Model.Main

namespace AsmParser

/-! ### C19 -/

/-- Undo the escapes `\t`, `\\`, `\"`. -/
def unescape : Str → Str
  | 92 :: 116 :: s => 9 :: unescape s
  | 92 :: 92 :: s => 92 :: unescape s
  | 92 :: 34 :: s => 34 :: unescape s
  | c :: s => c :: unescape s
  | [] => []

/-- Split at the quote that closes a string literal, i.e. the first one that is not part of an escape. -/
def closeQuote : Str → Option (Str × Str)
  | 92 :: c :: s => (closeQuote s).map fun x => (92 :: c :: x.1, x.2)
  | 34 :: s => some ([], s)
  | c :: s => (closeQuote s).map fun x => (c :: x.1, x.2)
  | [] => none

theorem unescape_plain {c : Byte} (h : c ≠ 92) (s : Str) : unescape (c :: s) = c :: unescape s := by
  conv => lhs; unfold unescape
  split <;> rename_i h' <;> simp at h'
  · exact absurd h'.1 h
  · exact absurd h'.1 h
  · exact absurd h'.1 h
  · obtain ⟨rfl, rfl⟩ := h'; rfl

theorem closeQuote_plain {c : Byte} (h1 : c ≠ 92) (h2 : c ≠ 34) (s : Str) :
    closeQuote (c :: s) = (closeQuote s).map fun x => (c :: x.1, x.2) := by
  conv => lhs; unfold closeQuote
  split <;> rename_i h' <;> simp at h'
  · exact absurd h'.1 h1
  · exact absurd h'.1 h2
  · obtain ⟨rfl, rfl⟩ := h'; rfl

/-- C19: un-escaping an escaped string gives the original string. -/
theorem C19_unescape (s : Str) : unescape (escape s) = s := by
  induction s with
  | nil => rfl
  | cons c s ih =>
    rw [escape_cons]
    by_cases h9 : c = 9
    · subst h9; simp only [↓reduceIte]; show 9 :: unescape (escape s) = _; rw [ih]
    · by_cases h92 : c = 92
      · subst h92; simp only [h9, ↓reduceIte]; show 92 :: unescape (escape s) = _; rw [ih]
      · by_cases h34 : c = 34
        · subst h34; simp only [h9, h92, ↓reduceIte]; show 34 :: unescape (escape s) = _; rw [ih]
        · simp only [h9, h92, h34, ↓reduceIte, List.cons_append, List.nil_append]
          rw [unescape_plain h92, ih]

/-- C19: escaping is injective. -/
theorem C19_injective (s t : Str) (h : escape s = escape t) : s = t := by
  rw [← C19_unescape s, h, C19_unescape]

/-- C19: an escaped string contains no unescaped quote and no dangling backslash: the literal ends where the
writer put the closing quote, whatever follows. -/
theorem C19_closing_quote (s r : Str) : closeQuote (escape s ++ 34 :: r) = some (escape s, r) := by
  induction s with
  | nil => rfl
  | cons c s ih =>
    rw [escape_cons]
    by_cases h9 : c = 9
    · subst h9; simp only [↓reduceIte, List.cons_append, List.nil_append, closeQuote, ih]; rfl
    · by_cases h92 : c = 92
      · subst h92; simp only [h9, ↓reduceIte, List.cons_append, List.nil_append, closeQuote, ih]; rfl
      · by_cases h34 : c = 34
        · subst h34; simp only [h9, h92, ↓reduceIte, List.cons_append, List.nil_append, closeQuote, ih]; rfl
        · simp only [h9, h92, h34, ↓reduceIte, List.cons_append, List.nil_append]
          rw [closeQuote_plain h92 h34, ih]; rfl

/-- A string with all three kinds of escapes. -/
example : escape b! "\ta\\\"b" = b! "\\ta\\\\\\\"b" ∧ unescape b! "\\ta\\\\\\\"b" = b! "\ta\\\"b" := by decide

/-! ### C20 -/

/-- C20 (partial): if the strings of a document contain no control characters other than tab, and its opcodes none
that would need escaping, a JSON reader accepts what is written and recovers exactly the document.  Missing: opcode
tokens that contain tabs (`C20_violation_opcode`). -/
theorem C20_document_partial (d : JsonDoc) (hl : ∀ l ∈ d.lines, LinePrintable l) (hd : ∀ p ∈ d.labels, NoControl p.1) :
    readJson d.write =
      some (documentJson d.filter d.lines d.labels (if d.reproducible then none else some d.time)
        ((d.originalLineCount : Int) - d.lines.length)) :=
  reads_json (reads_document d (fun l h => (hl l h).writable d.filter) (fun l h => (hl l h).opcodes) hd)

theorem lineJson_toView (m k : Bool) (l : AsmLine) : lineJson m k l.toView = lineJson m k l := rfl

/-- C20 for binary mode, if the tokens of the opcodes are hexadecimal words (C15): if the input contains no control characters
other than tab and line ends, the JSON output is accepted by a reader, which recovers the lines, the label definitions, the clock
and the number of dropped lines. -/
theorem C20_binary_hex (L : Locale) (f : Filter) (s : Str) (time : Int)
    (hs : ∀ c ∈ s, 32 ≤ c ∨ c = 9 ∨ c = 10 ∨ c = 13)
    (h3 : ∀ l ∈ (objParse L f s).lines, ∀ o ∈ l.opcodes, ∀ c ∈ o, isHex c = true) :
    readJson ((objParse L f s).outputJson time) =
      some (documentJson f (objParse L f s).lines (objParse L f s).labels (some time)
        (((objParse L f s).totalLines : Int) - (objParse L f s).lines.length)) := by
  have hQ : ∀ c ∈ s, c ≠ 10 → c ≠ 13 → (32 ≤ c ∨ c = 9) := by
    intro c hc h10 h13
    rcases hs c hc with h | h | h | h
    · exact .inl h
    · exact .inr h
    · exact absurd h h10
    · exact absurd h h13
  have hq : ∀ c ∈ b! ":[truncated; too many lines]", (32 ≤ c ∨ c = 9) := by decide
  have h1 := chars_parse (Q := fun c => 32 ≤ c ∨ c = 9) L f s hQ hq
  have h2 := chars_labels (Q := fun c => 32 ≤ c ∨ c = 9) L f s hQ hq
  have hf := parse_filter L f s
  have hr : (objParse L f s).reproducible = false := by
    refine objParse_induct (P := fun p => p.reproducible = false) rfl ?_ s
    intro p c h _
    rw [feed_reproducible, h]
  have := C20_document_partial ((objParse L f s).jsonDoc time) (by
    intro l hl
    simp only [OParser.jsonDoc, List.mem_map] at hl
    obtain ⟨l, hl, rfl⟩ := hl
    have h := h1 l hl
    refine ⟨h.text, h.sect, h.file, h.refs, ?_⟩
    intro o ho c hc
    have := h3 l hl o ho c hc
    revert this
    exact byte_forall (P := fun c => isHex c = true → 32 ≤ c ∧ c ≠ c! '"' ∧ c ≠ c! '\\') (by decide +kernel)) h2
  rw [OParser.outputJson, this]
  simp only [OParser.jsonDoc, hf, hr, documentJson, List.map_map, List.length_map]
  rfl

/-- C20, end to end for binary mode: if the input contains no control characters other than tab and line ends, and no
tab directly behind a hexadecimal digit, the JSON output is accepted by a reader, which recovers the lines, the label
definitions, the clock and the number of dropped lines. -/
theorem C20_binary (L : Locale) (f : Filter) (s : Str) (time : Int)
    (hs : ∀ c ∈ s, 32 ≤ c ∨ c = 9 ∨ c = 10 ∨ c = 13)
    (ht : ∀ d, isHex d = true → ¬ [d, 9] <:+: s.filter (· != 13)) :
    readJson ((objParse L f s).outputJson time) =
      some (documentJson f (objParse L f s).lines (objParse L f s).labels (some time)
        (((objParse L f s).totalLines : Int) - (objParse L f s).lines.length)) :=
  C20_binary_hex L f s time hs fun l hl o ho => (C15_opcode_tokens_no_tab L f s ht l hl o ho).2

/-- The sample listing meets the hypotheses. -/
example : (∀ c ∈ sampleObj, 32 ≤ c ∨ c = 9 ∨ c = 10 ∨ c = 13) ∧
    (∀ i : Fin 256, isHex (UInt8.ofFin i) = true → ¬ [UInt8.ofFin i, 9] <:+: sampleObj.filter (· != 13)) := by
  decide +kernel

/-- A document with all members that meets the hypotheses of `C20_document_partial`. -/
example : LinePrintable
    { text := b! " call \"f\"\t\\", sect := b! ".text", opcodes := [b! "e8", b! "00"], address := some 16,
      labels := [{ name := b! "f", startCol := 7, endCol := 8 }],
      source := { file := b! "/app/a.cpp", line := 3, column := 4 } } :=
  ⟨by decide, by decide, by decide, by decide, by decide⟩

/-- C20 is violated: a control character (here form feed) is written as it is, which no JSON reader accepts. -/
theorem C20_violation_control :
    readJson ((objParse Locale.utf8 {} b! "1: 90  x\x0c\n").outputJson 0) = none := by
  have : (readJson ((objParse Locale.utf8 {} b! "1: 90  x\x0c\n").outputJson 0)).isNone = true := by decide +kernel
  simpa using this

/-- C20 is violated: opcodes are not escaped, and may contain tabs. -/
theorem C20_violation_opcode :
    readJson ((objParse Locale.utf8 {} b! "1: 55\t5  x\n").outputJson 0) = none := by
  have : (readJson ((objParse Locale.utf8 {} b! "1: 55\t5  x\n").outputJson 0)).isNone = true := by decide +kernel
  simpa using this

/-! ### C21 -/

/-- The line with its main source file (if that is its file) called `name`. -/
def renameMain (name : Str) (l : AsmLine) : AsmLine :=
  if MainFile l.source.file then { l with source := { l.source with file := name } } else l

theorem writeLine_rename (f : Filter) (hf : f.dontMaskFilenames = false) (name : Str) (hn : MainFile name) (l : AsmLine) :
    writeLine f (renameMain name l) = writeLine f l := by
  unfold renameMain
  split
  · rename_i h
    have hs : writeSource f { l with source := { l.source with file := name } } = writeSource f l := by
      rw [writeSource_eq, writeSource_eq]
      simp only [sourceFileField_eq, hf, shownFile, sourceIsMain, isMainFile_eq, h, hn, decide_true, Bool.not_false, and_self,
        or_true, ↓reduceIte]
      simp
    rw [writeLine_eq, writeLine_eq, hs]
    rfl
  · rfl

/-- C21: without `dont_mask_filenames` the name of the main source file is not written: two documents that only differ
in it give the same JSON. -/
theorem C21_main_file_masked (d : JsonDoc) (hf : d.filter.dontMaskFilenames = false) (name : Str) (hn : MainFile name) :
    { d with lines := d.lines.map (renameMain name) }.write = d.write := by
  unfold JsonDoc.write
  have : (d.lines.map (renameMain name)).map (writeLine d.filter) = d.lines.map (writeLine d.filter) := by
    rw [List.map_map]
    exact List.map_congr_left fun l _ => writeLine_rename d.filter hf name hn l
  simp only [this, JsonDoc.filteredCount, List.length_map]

/-- The `i`-th line of a document's JSON. -/
def asmLine (v : JVal) (i : Nat) : Option JVal := (v.get b! "asm").bind fun a => a.elems[i]?

theorem source_member {d : JsonDoc} (hl : ∀ l ∈ d.lines, LinePrintable l) (hd : ∀ p ∈ d.labels, NoControl p.1)
    {v : JVal} (hv : readJson d.write = some v) {i : Nat} {l : AsmLine} (hi : d.lines[i]? = some l) :
    (asmLine v i).bind (·.get b! "source") = some (positionJson (!d.filter.dontMaskFilenames) l) := by
  rw [C20_document_partial d hl hd] at hv
  cases hv
  have : asmLine (documentJson d.filter d.lines d.labels (if d.reproducible then none else some d.time)
      ((d.originalLineCount : Int) - d.lines.length)) i = some (lineJson d.filter.compatmode (!d.filter.dontMaskFilenames) l) := by
    simp [asmLine, documentJson, JVal.get, JVal.elems, hi, List.lookup]
  rw [this]
  simp only [Option.bind_some, lineJson, JVal.get]
  have hne : ∀ k, k ≠ b! "source" → ∀ (x : JVal) r, List.lookup b! "source" ([(k, x)] ++ r) = List.lookup b! "source" r := by
    intro k hk x r
    have : (b! "source" == k) = false := by simpa using fun h => hk h.symm
    simp only [List.cons_append, List.nil_append, List.lookup, this]
  rw [List.append_assoc, List.append_assoc, List.append_assoc, List.append_assoc, hne _ (by decide)]
  have h1 : ∀ r, List.lookup b! "source" ((if l.opcodes = [] then [] else [(b! "opcodes", JVal.arr (l.opcodes.map .str))]) ++ r) =
      List.lookup b! "source" r := by
    intro r
    split
    · rfl
    · exact hne _ (by decide) _ _
  have h2 : ∀ (o : Option Int) r, List.lookup b! "source" (optNum b! "address" o ++ r) = List.lookup b! "source" r := by
    intro o r
    cases o with
    | none => rfl
    | some z => exact hne _ (by decide) _ _
  rw [h1, h2]
  rfl

/-- The members of a position. -/
theorem position_members (m : Bool) (l : AsmLine) (h : HasPosition l) :
    (positionJson m l).get b! "file" = some (optStr (shownFile m l.source.file)) ∧
    (positionJson m l).get b! "mainsource" =
      some (.str (if l.source.file = [] ∨ MainFile l.source.file then b! "true" else b! "false")) ∧
    (positionJson m l).get b! "line" = some (.num l.source.line) ∧
    (positionJson m l).get b! "column" = (if l.source.column = 0 then none else some (.num l.source.column)) := by
  unfold positionJson
  by_cases hc : l.source.column = 0
  · simp only [h, hc, ↓reduceIte, List.nil_append, JVal.get]
    exact ⟨rfl, rfl, rfl, rfl⟩
  · simp only [h, hc, ↓reduceIte, JVal.get]
    exact ⟨rfl, rfl, rfl, rfl⟩

/-- C21: the file member is null exactly for an unknown file and for the main source file (unless masking is off);
otherwise it is the file name without a leading `/app/`. -/
theorem C21_file_member (d : JsonDoc) (hl : ∀ l ∈ d.lines, LinePrintable l) (hd : ∀ p ∈ d.labels, NoControl p.1)
    (v : JVal) (hv : readJson d.write = some v) (i : Nat) (l : AsmLine) (hi : d.lines[i]? = some l)
    (hp : 0 < l.source.line ∧ (l.isLabel = true → l.hasOpcode = true)) :
    ∃ x, ((asmLine v i).bind (·.get b! "source")).bind (·.get b! "file") = some x ∧
      (x = .null ↔ l.source.file = [] ∨ (d.filter.dontMaskFilenames = false ∧ MainFile l.source.file)) ∧
      (∀ s, x = .str s → l.source.file = s ∧ ¬ b! "/app/" <+: l.source.file ∨ l.source.file = b! "/app/" ++ s) := by
  rw [source_member hl hd hv hi]
  simp only [Option.bind_some]
  refine ⟨_, (position_members _ l hp).1, ?_, ?_⟩
  · unfold shownFile
    cases hm : d.filter.dontMaskFilenames
    · simp only [Bool.not_false, true_and]
      split
      · rename_i h; simp [optStr, h]
      · rename_i h
        split <;> simp [optStr, h]
    · simp only [Bool.not_true, Bool.false_eq_true, false_and, or_false]
      split
      · rename_i h; simp [optStr, h]
      · rename_i h
        split <;> simp [optStr, h]
  · intro s hs
    unfold shownFile at hs
    split at hs
    · cases hs
    · split at hs
      · rename_i h
        obtain ⟨t, ht⟩ := h
        rw [← ht] at hs ⊢
        cases hs
        right; rfl
      · rename_i h
        cases hs
        exact .inl ⟨rfl, h⟩

/-- Masked, shortened, and other file names. -/
example : shownFile true b! "/app/example.cpp" = none ∧ shownFile true b! "/app/util.h" = some b! "util.h" ∧
    shownFile true b! "/usr/include/stdio.h" = some b! "/usr/include/stdio.h" ∧
    shownFile false b! "/app/example.cpp" = some b! "example.cpp" := by decide

/-! ### C22 -/

/-- C22 (binary mode): after `setReproducible` the JSON output does not depend on the running time. -/
theorem C22_reproducible_partial (L : Locale) (f : Filter) (s : Str) (t t' : Int) :
    ((OParser.init f).setReproducible.fromStream L s).outputJson t =
      ((OParser.init f).setReproducible.fromStream L s).outputJson t' ∧
    (objParse L f s).setReproducible.outputJson t = (objParse L f s).setReproducible.outputJson t' := by
  have h : ∀ p : OParser, p.reproducible = true → p.outputJson t = p.outputJson t' := by
    intro p hp
    simp only [OParser.outputJson, JsonDoc.write, OParser.jsonDoc, hp, ↓reduceIte]
    rfl
  refine ⟨h _ ?_, h _ rfl⟩
  have : ∀ (w : Str) (p : OParser), p.reproducible = true → (w.foldl (OParser.feed L) p).reproducible = true := by
    intro w
    induction w with
    | nil => exact fun p hp => hp
    | cons c w ih => intro p hp; exact ih _ (by rw [feed_reproducible]; exact hp)
  exact this s _ rfl

/-- Without it, the output does depend on the clock. -/
example : (objParse Locale.utf8 {} sampleObj).outputJson 1 ≠ (objParse Locale.utf8 {} sampleObj).outputJson 2 := by
  decide +kernel

/-- C22 is violated in text mode: the flag has no effect. -/
theorem C22_violation :
    ((TParser.init {}).setReproducible.fromStream Locale.utf8 Order.id 9 b! "main:\n ret\n" []).map (fun r => r.1.outputJson 1) ≠
      ((TParser.init {}).setReproducible.fromStream Locale.utf8 Order.id 9 b! "main:\n ret\n" []).map (fun r => r.1.outputJson 2) := by
  decide +kernel

/-! ### C23 -/

/-- C23: `source` is null exactly if the source line number is not positive or the line is a label without opcode;
otherwise it has `file`, `mainsource` and `line`, and `column` exactly if that is not zero. -/
theorem C23_source_member (d : JsonDoc) (hl : ∀ l ∈ d.lines, LinePrintable l) (hd : ∀ p ∈ d.labels, NoControl p.1)
    (v : JVal) (hv : readJson d.write = some v) (i : Nat) (l : AsmLine) (hi : d.lines[i]? = some l) :
    ∃ src, (asmLine v i).bind (·.get b! "source") = some src ∧
      (src = .null ↔ l.source.line ≤ 0 ∨ (l.isLabel = true ∧ l.hasOpcode = false)) ∧
      (src ≠ .null → src.get b! "line" = some (.num l.source.line) ∧
        (src.get b! "column" = if l.source.column = 0 then none else some (.num l.source.column)) ∧
        (∃ x, src.get b! "file" = some x) ∧
        (src.get b! "mainsource" = some (.str b! "true") ∨ src.get b! "mainsource" = some (.str b! "false"))) := by
  refine ⟨_, source_member hl hd hv hi, ?_, ?_⟩
  · have : positionJson (!d.filter.dontMaskFilenames) l = .null ↔ ¬ HasPosition l := by
      unfold positionJson
      split <;> simp [*]
    rw [this]
    unfold HasPosition
    cases l.isLabel <;> cases l.hasOpcode <;> simp <;> omega
  · intro h
    have hp : HasPosition l := by
      by_cases hp : HasPosition l
      · exact hp
      · exact absurd (by unfold positionJson; simp [hp]) h
    obtain ⟨h1, h2, h3, h4⟩ := position_members (!d.filter.dontMaskFilenames) l hp
    refine ⟨h3, h4, ⟨_, h1⟩, ?_⟩
    rw [h2]
    split
    · exact .inl rfl
    · exact .inr rfl

/-- In the sample listing the first line (a label) has no source, the second one has. -/
example : (asmLine (documentJson {} (objParse Locale.utf8 {} sampleObj).lines [] none 0) 1).isSome = true ∧
    ((objParse Locale.utf8 {} sampleObj).lines.map fun l => decide (HasPosition l)) =
      [false, true, true, false, true, false, true, false, true] := by decide +kernel

/-! ### C56 -/

theorem uniqueMembers_iff (ms : List (Str × JVal)) : uniqueMembers ms = true ↔ ∀ m ∈ ms, m.2.unique = true := by
  induction ms with
  | nil => simp [uniqueMembers]
  | cons m ms ih => obtain ⟨k, v⟩ := m; simp only [uniqueMembers, Bool.and_eq_true, ih, List.forall_mem_cons]

theorem uniqueElements_iff (vs : List JVal) : uniqueElements vs = true ↔ ∀ v ∈ vs, v.unique = true := by
  induction vs with
  | nil => simp [uniqueElements]
  | cons v vs ih => simp only [uniqueElements, Bool.and_eq_true, ih, List.forall_mem_cons]

theorem unique_position (m : Bool) (l : AsmLine) : (positionJson m l).unique = true := by
  unfold positionJson
  split
  · rw [JVal.unique, Bool.and_eq_true]
    refine ⟨?_, ?_⟩
    · split <;> rfl
    · rw [uniqueMembers_iff]
      intro x hx
      have : x.2 = .num l.source.column ∨ x.2 = optStr (shownFile m l.source.file) ∨ (∃ s, x.2 = .str s) ∨
          x.2 = .num l.source.line := by
        simp only [List.mem_append, List.mem_cons, List.not_mem_nil, or_false] at hx
        rcases hx with hx | rfl | rfl | rfl
        · split at hx
          · cases hx
          · simp at hx; subst hx; exact .inl rfl
        · exact .inr (.inl rfl)
        · exact .inr (.inr (.inl ⟨_, rfl⟩))
        · exact .inr (.inr (.inr rfl))
      rcases this with h | h | ⟨s, h⟩ | h <;> rw [h]
      · rfl
      · cases shownFile m l.source.file <;> rfl
      · rfl
      · rfl
  · rfl

theorem unique_line (c m : Bool) (l : AsmLine) : (lineJson c m l).unique = true := by
  unfold lineJson
  rw [JVal.unique, Bool.and_eq_true]
  refine ⟨?_, ?_⟩
  · generalize (if c = true ∧ l.isLabel = true then none else l.address) = a
    simp only [decide_eq_true_eq, List.map_append]
    have h1 : (if l.opcodes = [] then [] else [(b! "opcodes", JVal.arr (l.opcodes.map .str))]).map (·.1) =
        if l.opcodes = [] then [] else [b! "opcodes"] := by split <;> rfl
    have h2 : (optNum b! "address" a).map (·.1) = if a.isNone then [] else [b! "address"] := by cases a <;> rfl
    have h3 : (if l.sect = [] ∨ c = true then [] else [(b! "section", JVal.str l.sect)]).map (·.1) =
        if l.sect = [] ∨ c = true then [] else [b! "section"] := by split <;> rfl
    rw [h1, h2, h3]
    simp only [List.map_cons, List.map_nil]
    split <;> split <;> split <;> decide
  · rw [uniqueMembers_iff]
    intro x hx
    simp only [List.mem_append, List.mem_cons, List.not_mem_nil, or_false] at hx
    rcases hx with ((((rfl | hx) | hx) | rfl) | hx) | rfl
    · simp only [JVal.unique]
      rw [uniqueElements_iff]
      intro v hv
      obtain ⟨r, _, rfl⟩ := List.mem_map.mp hv
      rfl
    · split at hx
      · cases hx
      · simp at hx; subst hx
        simp only [JVal.unique]
        rw [uniqueElements_iff]
        intro v hv
        obtain ⟨r, _, rfl⟩ := List.mem_map.mp hv
        rfl
    · generalize (if c = true ∧ l.isLabel = true then none else l.address) = a at hx
      cases a with
      | none => cases hx
      | some z => simp [optNum] at hx; subst hx; rfl
    · exact unique_position m l
    · split at hx
      · cases hx
      · simp at hx; subst hx; rfl
    · rfl

/-- C56 (partial): if the defined labels are distinct, no object in the JSON output has two members of the same name.
Missing: labels that are defined more than once (`C56_violation`). -/
theorem C56_unique_names_partial (d : JsonDoc) (hl : ∀ l ∈ d.lines, LinePrintable l) (hd : ∀ p ∈ d.labels, NoControl p.1)
    (hn : (d.labels.map (·.1)).Nodup) : ∃ v, readJson d.write = some v ∧ v.unique = true := by
  refine ⟨_, C20_document_partial d hl hd, ?_⟩
  unfold documentJson
  rw [JVal.unique, Bool.and_eq_true]
  refine ⟨?_, ?_⟩
  · split <;> rfl
  · rw [uniqueMembers_iff]
    intro x hx
    simp only [List.mem_append, List.mem_cons, List.not_mem_nil, or_false] at hx
    rcases hx with ((rfl | rfl) | hx) | rfl
    · simp only [JVal.unique]
      rw [uniqueElements_iff]
      intro v hv
      obtain ⟨r, _, rfl⟩ := List.mem_map.mp hv
      exact unique_line _ _ r
    · simp only [JVal.unique, Bool.and_eq_true]
      refine ⟨?_, ?_⟩
      · simpa [Function.comp_def] using hn
      · rw [uniqueMembers_iff]
        intro m hm
        obtain ⟨r, _, rfl⟩ := List.mem_map.mp hm
        rfl
    · split at hx
      · cases hx
      · simp [optNum] at hx; subst hx; rfl
    · rfl

/-- C56: the names are distinct exactly if the defined labels are. -/
theorem C56_exactly (d : JsonDoc) (hl : ∀ l ∈ d.lines, LinePrintable l) (hd : ∀ p ∈ d.labels, NoControl p.1) :
    ∃ v, readJson d.write = some v ∧ (v.unique = true ↔ (d.labels.map (·.1)).Nodup) := by
  by_cases hn : (d.labels.map (·.1)).Nodup
  · obtain ⟨v, h1, h2⟩ := C56_unique_names_partial d hl hd hn
    exact ⟨v, h1, fun _ => hn, fun _ => h2⟩
  · refine ⟨_, C20_document_partial d hl hd, fun h => ?_, fun h => absurd h hn⟩
    unfold documentJson at h
    rw [JVal.unique, Bool.and_eq_true, uniqueMembers_iff] at h
    have := h.2 (b! "labelDefinitions", .obj (d.labels.map fun d => (d.1, .num d.2))) (by simp)
    simp only [JVal.unique, Bool.and_eq_true, decide_eq_true_eq, List.map_map] at this
    exact this.1

/-- The sample listing has distinct labels. -/
example : ((objParse Locale.utf8 {} sampleObj).labels.map (·.1)).Nodup ∧ (objParse Locale.utf8 {} sampleObj).labels ≠ [] := by
  decide +kernel

/-- C56 is violated: two functions of the same name (for example `static` functions of two source files, or C++
functions whose demangled names coincide) give two members of the same name. -/
theorem C56_violation :
    ((readJson ((objParse Locale.utf8 {} b! "0000 <f>:\n 1: 90  nop\n0010 <f>:\n 11: 90  nop\n").outputJson 0)).map
      fun v => ((v.get b! "labelDefinitions").map JVal.unique, (objParse Locale.utf8 {}
        b! "0000 <f>:\n 1: 90  nop\n0010 <f>:\n 11: 90  nop\n").labels)) =
    some (some false, [(b! "f", 1), (b! "f", 3)]) := by
  decide +kernel

end AsmParser
