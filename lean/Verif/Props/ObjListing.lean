/-
Properties C14, C17, C18 and C55 of binary mode: well-formed listings are decoded exactly.
-/
import Verif.Proofs.ObjListing
import Verif.Spec.Samples
import Verif.Props.ObjLines

namespace AsmParser

/-! ### C14 -/

theorem At.start (f : Filter) : At {} (start f).st := ⟨Boundary.start f, rfl, rfl, rfl, rfl, rfl, rfl, rfl⟩

/-- C14: the output for a well-formed listing with at most 5000 output lines is exactly the expected one, the label table
lists its label lines, and no undefined behaviour occurs. -/
theorem C14_listing_exact (L : Locale) (hL : L.Ascii) (f : Filter) (items : List Item) (hf : f.libraryFunctions = false)
    (hw : WfListing f.plt {} items) (hn : (expected f.plt {} items).length ≤ 5000) :
    (objParse L f (renderListing items)).lines = expected f.plt {} items ∧
    (objParse L f (renderListing items)).labels = labelTable 1 (expected f.plt {} items) ∧
    (objParse L f (renderListing items)).st.ub = false := by
  have h := listing_ok (c := {}) (p := start f) hL items (At.start f) hw hf (by simpa [start] using hn)
  have e : objParse L f (renderListing items) = (renderListing items).foldl (OParser.feed L) (start f) := objParse_eq ..
  simp only at h
  rw [← e] at h
  obtain ⟨⟨c', hc'⟩, h2⟩ := h
  have h3 : (objParse L f (renderListing items)).lines = expected f.plt {} items := by rw [h2]; rfl
  refine ⟨h3, ?_, hc'.ub⟩
  rw [C03_label_definitions_exact_partial L f _ (by rw [h3]; exact hn), h3]

/-- A listing with all kinds of lines. -/
def sampleItems : List Item :=
  [ .blank [],
    .note b! "a.out" b! "     file format elf64-x86-64",
    .section b! ".text" [],
    .header b! "0000000000001000" b! "_init",
    .instr b! "    " b! "1000" [9] [b! "c3"] 32 b! "                  \t" ⟨[.plain b! "ret"], []⟩,
    .header b! "0000000000001020" b! "main",
    .note b! "main()" [],
    .source b! "/app/example.cpp" b! "3" b! " (discriminator 2)",
    .instr b! "    " b! "1021" [9] [b! "e8", b! "00", b! "00", b! "00", b! "00"] 32 b! "      \t"
      ⟨[.plain b! "call   1030 ", .ref b! "f" b! "+0x4", .plain b! "  "], b! "# <x>"⟩,
    .reloc b! "\t\t\t" b! "1022" [32] b! "_X86_64_PC32\tf",
    .more b! "    " b! "1026" [9] [b! "00", b! "00"],
    .prose b! "f(int," b! " char):" ]

theorem leftOut_main : leftOut false b! "main" = false := by
  rw [leftOut_eq { }]; decide +kernel
theorem leftOut_init : leftOut false b! "_init" = true := by
  rw [leftOut_eq { }]; decide +kernel

theorem isWord_of {w : Str} {ch : Byte} (h1 : w.getLast? = some ch) (h2 : isHex ch = false)
    (h3 : ∀ c ∈ w, isWhitespace c = false ∧ c ≠ c! ':' ∧ c ≠ c! '/' ∧ c ≠ c! ';') (h4 : (10 : Byte) ∉ w ∧ (13 : Byte) ∉ w) :
    IsWord w := by
  refine ⟨h3, h4, ⟨ch, List.mem_of_getLast? h1, h2⟩, ?_⟩
  intro v hv ha
  obtain ⟨u, rfl⟩ := hv
  induction v using snoc_induct with
  | nil => decide
  | snoc v d _ =>
    rw [← List.append_assoc, List.getLast?_append] at h1
    simp at h1
    subst h1
    rw [ha d (by simp)] at h2; cases h2

/-- An instruction line whose parts have been checked. -/
theorem instr_wf {ign : Bool} {ws a gap : Str} {bs : List Str} {sep : Byte} {pad : Str} {x : InstrText}
    (h : (∀ c ∈ ws, isWhitespace c = true) ∧ (a ≠ [] ∧ (∀ c ∈ a, isHex c = true) ∧ hexVal a < 2147483648) ∧
      (∀ c ∈ gap, isWhitespace c = true) ∧ (bs ≠ [] ∧ ∀ b ∈ bs, b ≠ [] ∧ ∀ c ∈ b, isHex c = true) ∧
      isWhitespace sep = true ∧ (∀ c ∈ pad, isWhitespace c = true) ∧
      (x.comment = [] ∨ x.comment.head? = some c! '#') ∧ (∀ c ∈ x.render, 0 < c ∧ c < 128 ∧ c ≠ 10 ∧ c ≠ 13) ∧
      x.render.length ≤ 65533)
    (hp : ∀ p ∈ x.pieces, p.Wf) (hf : ∃ c cs, x.render = c :: cs ∧ isWhitespace c = false) :
    Item.Wf ign (.instr ws a gap bs sep pad x) :=
  ⟨h.1, h.2.1, h.2.2.1, h.2.2.2.1, h.2.2.2.2.1, h.2.2.2.2.2.1,
    ⟨hp, h.2.2.2.2.2.2.1, h.2.2.2.2.2.2.2.1, hf, h.2.2.2.2.2.2.2.2⟩⟩

theorem sampleItems_wf : WfListing false {} sampleItems := by
  unfold sampleItems
  simp only [WfListing, Ctx.after, leftOut_main, leftOut_init]
  refine ⟨by simp [Item.Wf, AllBlank], ⟨isWord_of (ch := c! 't') rfl (by decide) (by decide) (by decide), by unfold OneLine; decide, by decide⟩,
    ?_, ?_, instr_wf (by decide) ?_ ⟨_, _, rfl, by decide⟩, ?_,
    ⟨isWord_of (ch := c! ')') rfl (by decide) (by decide) (by decide), by unfold OneLine; decide, by decide⟩, ?_,
    instr_wf (by decide) ?_ ⟨_, _, rfl, by decide⟩, ?_, ?_,
    ⟨isWord_of (ch := c! ',') rfl (by decide) (by decide) (by decide), by unfold OneLine; decide, by decide, rfl⟩, trivial⟩
  case refine_3 | refine_6 =>
    intro p hp
    simp only [List.mem_cons, List.not_mem_nil, or_false] at hp
    first
    | (rcases hp with rfl | rfl | rfl <;> unfold Piece.Wf <;> decide)
    | (subst hp; unfold Piece.Wf; decide)
  all_goals
    unfold Item.Wf
    simp only [OneLine, AllBlank, IsAddr, IsBytes]
  case refine_5 => exact ⟨by decide, by decide, by decide, by decide, by decide, by decide, .inr ⟨⟨_, rfl, by decide⟩, by decide⟩⟩
  all_goals decide

theorem sampleItems_expected : expected false {} sampleItems =
    [ { text := b! "main:", label := b! "main", isLabel := true, sect := b! ".text" },
      { text := b! " call   1030 <f+0x4>  # <x>", sect := b! ".text", address := some 4129,
        source := { file := b! "/app/example.cpp", line := 3, isUsercode := true },
        opcodes := [b! "e8", b! "00", b! "00", b! "00", b! "00"], labels := [⟨b! "f", 15, 16⟩] },
      { text := b! "    R_X86_64_PC32 f", sect := b! ".text", address := some 4130,
        source := { file := b! "/app/example.cpp", line := 3, isUsercode := true } },
      { text := b! " 00 00 ", sect := b! ".text", address := some 4134,
        source := { file := b! "/app/example.cpp", line := 3, isUsercode := true } } ] := by
  have hf : leftOut false b! "f" = false := by rw [leftOut_eq { }]; decide +kernel
  have hl : inLibrary b! "/app/example.cpp" = false := by decide +kernel
  unfold sampleItems
  simp only [expected, Ctx.out, Ctx.emit, Ctx.after, leftOut_main, leftOut_init, pieceRefs, hf, hl]
  rfl

/-- The sample meets the hypotheses, and its output is not trivial. -/
example : (objParse .utf8 {} (renderListing sampleItems)).lines = expected false {} sampleItems ∧
    (objParse .utf8 {} (renderListing sampleItems)).labels = [(b! "main", 1)] := by
  have := C14_listing_exact .utf8 Locale.utf8_ascii {} sampleItems rfl sampleItems_wf (by
    show (expected false {} sampleItems).length ≤ 5000
    rw [sampleItems_expected]; decide)
  refine ⟨this.1, ?_⟩
  rw [this.2.1]
  show labelTable 1 (expected false {} sampleItems) = _
  rw [sampleItems_expected]; rfl

/-! ### C17, C18, C55: what precedes a line -/

/-- The context behind some lines. -/
noncomputable def ctxAfter (plt : Bool) (c : Ctx) (is : List Item) : Ctx := is.foldl (Ctx.after plt) c

theorem expected_append (plt : Bool) (c : Ctx) (a b : List Item) :
    expected plt c (a ++ b) = expected plt c a ++ expected plt (ctxAfter plt c a) b := by
  induction a generalizing c with
  | nil => rfl
  | cons i a ih => simp [expected, ih, ctxAfter]

theorem wf_append (plt : Bool) (c : Ctx) (a b : List Item) :
    WfListing plt c (a ++ b) ↔ WfListing plt c a ∧ WfListing plt (ctxAfter plt c a) b := by
  induction a generalizing c with
  | nil => simp [WfListing, ctxAfter]
  | cons i a ih => simp [WfListing, ih, ctxAfter, and_assoc]

/-- One more line of a well-formed listing. -/
theorem listing_step (L : Locale) (hL : L.Ascii) (f : Filter) (pre : List Item) (i : Item) (hf : f.libraryFunctions = false)
    (hw : WfListing f.plt {} (pre ++ [i])) (hn : (expected f.plt {} (pre ++ [i])).length ≤ 5000) :
    (objParse L f (renderListing (pre ++ [i]))).lines =
      (objParse L f (renderListing pre)).lines ++ (ctxAfter f.plt {} pre).out f.plt i := by
  have h1 := C14_listing_exact L hL f (pre ++ [i]) hf hw hn
  have h2 := C14_listing_exact L hL f pre hf ((wf_append ..).1 hw).1 (by
    rw [expected_append, List.length_append] at hn; omega)
  rw [h1.1, h2.1, expected_append]
  simp [expected]

theorem out_source (plt : Bool) (c : Ctx) (i : Item) : ∀ l ∈ c.out plt i, l.source = c.source ∧ l.sect = c.sect := by
  intro l hl
  cases i <;> simp only [Ctx.out, Ctx.emit] at hl <;> split at hl <;> simp at hl <;> subst hl <;> exact ⟨rfl, rfl⟩

theorem ctx_source (plt : Bool) (is : List Item) (c : Ctx) (s : AsmSource) (h : c.source.file = s.file ∧
      c.source.isUsercode = s.isUsercode ∧ c.source.column = s.column ∧ (c.source.line = s.line ∨ c.source.line = 0)) :
    let t := (ctxAfter plt c is).source
    let u := is.foldl sourceStep s
    t.file = u.file ∧ t.isUsercode = u.isUsercode ∧ t.column = u.column ∧ (t.line = u.line ∨ t.line = 0) := by
  induction is generalizing c s with
  | nil => exact h
  | cons i is ih =>
    simp only [ctxAfter, List.foldl_cons]
    refine ih _ _ ?_
    cases i <;> simp only [Ctx.after, sourceStep]
    case source path line tail =>
      refine ⟨trivial, trivial, trivial, ?_⟩
      split <;> simp
    all_goals exact h

theorem ctx_source_kept (plt : Bool) (is : List Item) (c : Ctx) (hc : c.ign = false)
    (hk : ∀ a n, Item.header a n ∈ is → ¬ IgnoredName plt n) :
    (ctxAfter plt c is).source = is.foldl sourceStep c.source ∧ (ctxAfter plt c is).ign = false := by
  induction is generalizing c with
  | nil => exact ⟨rfl, hc⟩
  | cons i is ih =>
    simp only [ctxAfter, List.foldl_cons]
    have e : (c.after plt i).source = sourceStep c.source i ∧ (c.after plt i).ign = false := by
      cases i <;> simp only [Ctx.after, sourceStep]
      case header a n => exact ⟨trivial, by have := hk a n (by simp); simpa [leftOut] using this⟩
      case source path line tail => simp [hc]
      all_goals exact ⟨trivial, hc⟩
    have := ih (c.after plt i) e.2 (fun a n h => hk a n (by simp [h]))
    rw [e.1] at this
    exact this

theorem ctx_section (plt : Bool) (is : List Item) (c : Ctx) :
    (ctxAfter plt c is).sect = is.foldl sectionStep c.sect := by
  induction is generalizing c with
  | nil => rfl
  | cons i is ih =>
    simp only [ctxAfter, List.foldl_cons]
    have e : (c.after plt i).sect = sectionStep c.sect i := by cases i <;> rfl
    rw [← e]
    exact ih _

theorem ctx_ign (plt : Bool) (is : List Item) (c : Ctx) :
    (ctxAfter plt c is).ign = match lastHeader is with | some n => leftOut plt n | none => c.ign := by
  induction is using snoc_induct with
  | nil => rfl
  | snoc is i ih =>
    have e : ctxAfter plt c (is ++ [i]) = (ctxAfter plt c is).after plt i := by simp [ctxAfter]
    have e2 : lastHeader (is ++ [i]) = headerStep (lastHeader is) i := by simp [lastHeader]
    rw [e, e2]
    cases i <;> simp only [Ctx.after, headerStep] <;> exact ih

/-- Two functions that are kept. -/
def keptItems : List Item :=
  [ .section b! ".text" [], .header b! "1000" b! "main", .source b! "/a.c" b! "5" [],
    .instr b! " " b! "1000" [9] [b! "c3"] 32 [9] ⟨[.plain b! "ret"], []⟩, .header b! "1010" b! "main" ]

theorem keptItems_wf : WfListing false {} keptItems := by
  unfold keptItems
  simp only [WfListing]
  refine ⟨?_, ?_, ?_, instr_wf (by decide) ?_ ⟨_, _, rfl, by decide⟩, ?_, trivial⟩
  case refine_4 =>
    intro p hp
    simp only [List.mem_cons, List.not_mem_nil, or_false] at hp
    subst hp; unfold Piece.Wf; decide
  all_goals
    unfold Item.Wf
    simp only [OneLine, IsAddr]
  case refine_3 => exact ⟨by decide, by decide, by decide, by decide, by decide, by decide, .inl trivial⟩
  all_goals decide

theorem keptItems_expected : (expected false {} keptItems).length ≤ 5000 := by
  unfold keptItems
  simp [expected, Ctx.out, Ctx.after, Ctx.emit, leftOut_main]

theorem main_kept : ¬ IgnoredName false b! "main" := by
  have := leftOut_main
  simpa [leftOut] using this

/-- C17 (partial): in a well-formed listing in which no function is left out, every output line is attributed to the last
source reference before it.  Missing: listings with left-out functions, see `C17_source_file` and `C17_violation`. -/
theorem C17_source_partial (L : Locale) (hL : L.Ascii) (f : Filter) (pre : List Item) (i : Item)
    (hf : f.libraryFunctions = false) (hw : WfListing f.plt {} (pre ++ [i]))
    (hn : (expected f.plt {} (pre ++ [i])).length ≤ 5000)
    (hk : ∀ a n, Item.header a n ∈ pre → ¬ IgnoredName f.plt n) :
    ∃ out, (objParse L f (renderListing (pre ++ [i]))).lines = (objParse L f (renderListing pre)).lines ++ out ∧
      ∀ l ∈ out, l.source = sourceBefore pre := by
  refine ⟨_, listing_step L hL f pre i hf hw hn, ?_⟩
  intro l hl
  rw [(out_source _ _ _ l hl).1]
  exact (ctx_source_kept f.plt pre {} rfl hk).1

/-- The instruction of `keptItems` meets the hypotheses. -/
example : ∃ l, (objParse .utf8 {} (renderListing keptItems)).lines =
      (objParse .utf8 {} (renderListing (keptItems.take 4))).lines ++ [l] ∧ l.source = ⟨b! "/a.c", 0, 5, 0, true, false⟩ := by
  have h := C17_source_partial .utf8 Locale.utf8_ascii {} (keptItems.take 4) (.header b! "1010" b! "main") rfl keptItems_wf
    keptItems_expected (by
      intro a n h
      simp [keptItems] at h
      rw [h.2]; exact main_kept)
  obtain ⟨out, h1, h2⟩ := h
  have h3 : out.length = 1 := by
    have := congrArg List.length h1
    rw [show (objParse .utf8 {} (renderListing (keptItems.take 4 ++ [.header b! "1010" b! "main"]))).lines.length = 3 by decide +kernel,
      List.length_append, show (objParse .utf8 {} (renderListing (keptItems.take 4))).lines.length = 2 by decide +kernel] at this
    omega
  obtain ⟨l, rfl⟩ := List.length_eq_one_iff.1 h3
  exact ⟨l, h1, (h2 l (by simp)).trans (by decide +kernel)⟩

/-- C17 with left-out functions: the file is right, the line number is right or missing. -/
theorem C17_source_file (L : Locale) (hL : L.Ascii) (f : Filter) (pre : List Item) (i : Item)
    (hf : f.libraryFunctions = false) (hw : WfListing f.plt {} (pre ++ [i]))
    (hn : (expected f.plt {} (pre ++ [i])).length ≤ 5000) :
    ∃ out, (objParse L f (renderListing (pre ++ [i]))).lines = (objParse L f (renderListing pre)).lines ++ out ∧
      ∀ l ∈ out, l.source.file = (sourceBefore pre).file ∧ l.source.isUsercode = (sourceBefore pre).isUsercode ∧
        (l.source.line = (sourceBefore pre).line ∨ l.source.line = 0) := by
  refine ⟨_, listing_step L hL f pre i hf hw hn, ?_⟩
  intro l hl
  rw [(out_source _ _ _ l hl).1]
  have := ctx_source f.plt pre {} {} ⟨rfl, rfl, rfl, .inl rfl⟩
  exact ⟨this.1, this.2.1, this.2.2.2⟩

/-- C17 fails: a line number inside a left-out function is lost. -/
theorem C17_violation : ∃ (pre : List Item) (i : Item), WfListing false {} (pre ++ [i]) ∧
    ∃ l, (objParse .utf8 {} (renderListing (pre ++ [i]))).lines = (objParse .utf8 {} (renderListing pre)).lines ++ [l] ∧
      l.source.line ≠ (sourceBefore pre).line := by
  refine ⟨[.header b! "1000" b! "_init", .source b! "/a.c" b! "5" []], .header b! "1010" b! "main", ?_, ?_⟩
  · simp only [List.cons_append, List.nil_append, WfListing, Item.Wf, OneLine, IsAddr]
    exact ⟨by decide, ⟨by decide, by decide, by decide, by decide, by decide, by decide, .inl trivial⟩, by decide, trivial⟩
  · exact ⟨{ text := b! "main:", label := b! "main", isLabel := true, source := { file := b! "/a.c", isUsercode := true } },
      by decide +kernel, by decide⟩

/-- C18: every output line of a well-formed listing carries the name given by the last section header before it. -/
theorem C18_section (L : Locale) (hL : L.Ascii) (f : Filter) (pre : List Item) (i : Item)
    (hf : f.libraryFunctions = false) (hw : WfListing f.plt {} (pre ++ [i]))
    (hn : (expected f.plt {} (pre ++ [i])).length ≤ 5000) :
    ∃ out, (objParse L f (renderListing (pre ++ [i]))).lines = (objParse L f (renderListing pre)).lines ++ out ∧
      ∀ l ∈ out, l.sect = sectionBefore pre := by
  refine ⟨_, listing_step L hL f pre i hf hw hn, ?_⟩
  intro l hl
  rw [(out_source _ _ _ l hl).2]
  exact ctx_section f.plt pre {}

example : WfListing false {} (keptItems.take 4 ++ [.header b! "1010" b! "main"]) ∧
    (expected false {} (keptItems.take 4 ++ [.header b! "1010" b! "main"])).length ≤ 5000 ∧
    sectionBefore (keptItems.take 4) = b! ".text" := ⟨keptItems_wf, keptItems_expected, rfl⟩

/-- C55 (partial): the label line of a function carries its address if the function before it is not left out.
Missing: a function behind a left-out one, see `C55_violation`. -/
theorem C55_header_address_partial (L : Locale) (hL : L.Ascii) (f : Filter) (pre : List Item) (a n : Str)
    (hf : f.libraryFunctions = false) (hw : WfListing f.plt {} (pre ++ [.header a n]))
    (hlen : (expected f.plt {} (pre ++ [.header a n])).length ≤ 5000) (hn : ¬ IgnoredName f.plt n)
    (hk : ∀ m, lastHeader pre = some m → ¬ IgnoredName f.plt m) :
    ∃ l, (objParse L f (renderListing (pre ++ [.header a n]))).lines = (objParse L f (renderListing pre)).lines ++ [l] ∧
      l.isLabel = true ∧ l.label = n ∧ l.text = n ++ b! ":" ∧ l.address = some (hexVal a : Int) := by
  rw [listing_step L hL f pre _ hf hw hlen]
  have hl : leftOut f.plt n = false := by simpa [leftOut] using hn
  have hi : (ctxAfter f.plt {} pre).ign = false := by
    rw [ctx_ign]
    cases h : lastHeader pre with
    | none => rfl
    | some m => simpa [leftOut] using hk m h
  refine ⟨_, by simp only [Ctx.out, hl, Bool.false_eq_true, ↓reduceIte]; rfl, rfl, rfl, rfl, ?_⟩
  simp [hi]

example : ¬ IgnoredName false b! "main" ∧ ∀ m, lastHeader (keptItems.take 4) = some m → ¬ IgnoredName false m :=
  ⟨main_kept, fun m h => by
    have : m = b! "main" := by rw [show lastHeader (keptItems.take 4) = some b! "main" by rfl] at h; exact (Option.some.inj h).symm
    rw [this]; exact main_kept⟩

/-- C55 fails: the label behind a left-out function has no address. -/
theorem C55_violation : ∃ (pre : List Item) (a n : Str), WfListing false {} (pre ++ [.header a n]) ∧
    ∃ l, (objParse .utf8 {} (renderListing (pre ++ [.header a n]))).lines = (objParse .utf8 {} (renderListing pre)).lines ++ [l] ∧
      l.label = n ∧ l.address = none := by
  refine ⟨[.header b! "1000" b! "_init"], b! "1010", b! "main", ?_, ?_⟩
  · simp only [List.cons_append, List.nil_append, WfListing, Item.Wf, OneLine, IsAddr]
    exact ⟨by decide, by decide, trivial⟩
  · exact ⟨{ text := b! "main:", label := b! "main", isLabel := true }, by decide +kernel, rfl, rfl⟩

end AsmParser
