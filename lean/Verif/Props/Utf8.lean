/-
C68: valid UTF-8 in, valid UTF-8 out.
-/
import Verif.Proofs.ObjUtf8
import Verif.Proofs.JsonUtf8
import Verif.Props.Sources
import Verif.Props.References
import Verif.Props.TextMode
import Verif.Spec.Samples

namespace AsmParser

attribute [local irreducible] Re.search Re.fullMatch

/-! ### Binary mode -/

/-- C68, binary mode: the text output for valid UTF-8 is valid UTF-8. -/
theorem C68_binary (L : Locale) (f : Filter) (s : Str) (hs : ValidUtf8 s) : ValidUtf8 (objParse L f s).outputText := by
  unfold OParser.outputText
  have h := (utf8_parse L f s hs).2
  generalize (objParse L f s).lines = ls at h
  induction ls with
  | nil => exact .nil
  | cons l ls ih =>
    rw [List.flatMap_cons]
    exact ((h l (by simp)).text.append (.one (by decide))).append (ih fun x hx => h x (by simp [hx]))

/-- C68 (partial), binary mode: the JSON output for valid UTF-8 is valid UTF-8 if the output lines with label references are ASCII.
Missing: other lines, in which a name may be cut at the wrong place, see `C68_violation`. -/
theorem C68_binary_json_partial (L : Locale) (f : Filter) (s : Str) (time : Int) (hs : ValidUtf8 s)
    (ha : ∀ l ∈ (objParse L f s).lines, l.labels ≠ [] → Ascii7 l.text) : ValidUtf8 ((objParse L f s).outputJson time) := by
  refine write_valid _ ?_ (utf8_labels L f s hs)
  intro l hl
  obtain ⟨l, hm, rfl⟩ := List.mem_map.1 hl
  replace hl := hm
  clear hm
  have h := (utf8_parse L f s hs).2 l hl
  refine ⟨h.text, h.sect, fun _ => h.file, fun r hr => ?_, fun o ho => ?_⟩
  · have hr : r ∈ l.labels := hr
    have hne : l.labels ≠ [] := List.ne_nil_of_mem hr
    rcases refs_parse L f s l hl with e | ⟨t, e, h'⟩
    · exact absurd e hne
    · obtain ⟨r', ⟨x, -, -, h3, -⟩, h2, -⟩ := h' r hr
      rw [h2, h3]
      refine .ascii fun c hc => ha l hl hne c ?_
      rw [e]
      exact List.mem_cons_of_mem _ (List.mem_of_mem_take (List.mem_of_mem_drop hc))
  · have := opcodes_parse (L := L) (f := f) (Q := hexTab) (fun c h => .inl h) s (fun _ _ _ _ _ _ => .inr rfl) l hl o ho
    refine .ascii fun c hc => ?_
    rcases this.2 c hc with h | rfl
    · exact isHex_ascii h
    · decide

/-- A listing with characters that are not ASCII, in a file name, in a label and in a line without references. -/
def utf8Obj : Str :=
  b! "0000000000001020 <f" ++ utf8Encode 0xfc ++ b! ">:\n/app/" ++ utf8Encode 0x4e2d ++ b! ".cpp:3\n" ++
  b! "    1020:\t55 \tpush %rbp ; " ++ utf8Encode 0x1f600 ++ b! "\n    1021:\te8 00 \tcall 1030 <f+1>\n"

example : ValidUtf8 utf8Obj ∧ (∀ l ∈ (objParse Locale.utf8 {} utf8Obj).lines, l.labels ≠ [] → Ascii7 l.text) ∧
    (objParse Locale.utf8 {} utf8Obj).lines.map (fun l => (l.text, l.source.file, l.labels.length)) =
      [(b! "fü:", [], 0), (b! " push %rbp ; 😀", b! "/app/中.cpp", 0), (b! " call 1030 <f+1>", b! "/app/中.cpp", 1)] := by
  refine ⟨?_, by decide +kernel, by decide +kernel⟩
  unfold utf8Obj
  exact .append (.append (.append (.append (.append (.append (.append (.ascii (by decide +kernel)) (.encode (by unfold Scalar; decide)))
    (.ascii (by decide +kernel))) (.encode (by unfold Scalar; decide))) (.ascii (by decide +kernel))) (.ascii (by decide +kernel)))
    (.encode (by unfold Scalar; decide))) (.ascii (by decide +kernel))

/-- In a line with other characters the name of a reference is cut out at the wrong place, even in the middle of a character:
the JSON output is not valid UTF-8, although the input is. -/
theorem C68_violation : ∃ s, ValidUtf8 s ∧ ¬ ValidUtf8 ((objParse Locale.utf8 {} s).outputJson 0) := by
  refine ⟨b! " 1:\t90\tjmp éé<f>\n", ?_, fun h => ?_⟩
  · have e : b! " 1:\t90\tjmp éé<f>\n" = b! " 1:\t90\tjmp " ++ [0xe9, 0xe9].flatMap utf8Encode ++ b! "<f>\n" := by decide
    rw [e]
    exact .append (.append (.ascii (by decide)) ⟨_, by unfold Scalar; decide, rfl⟩) (.ascii (by decide))
  · have := utf8Check_ok 2000 _ h (by decide +kernel)
    revert this
    decide +kernel

/-! ### Text mode -/

/-- The text of every output line is valid. -/
theorem text_valid {L : Locale} {f : Filter} {s : Str} {p : TParser} (h : TextResult L f s p) (hs : ValidUtf8 s) :
    ∀ l ∈ p.lines, ValidUtf8 l.text := by
  obtain ⟨ps, h1, h2, h3⟩ := C34_shown L f s p h
  intro l hl
  by_cases ht : l.text = []
  · rw [ht]; exact .nil
  have : (l.text, l.isInlineAsm) ∈ (p.lines.map fun l => (l.text, l.isInlineAsm)).filter (fun x => x.1 ≠ []) :=
    List.mem_filter.2 ⟨List.mem_map_of_mem hl, by simpa using ht⟩
  rw [h1] at this
  obtain ⟨x, hx, e⟩ := List.mem_map.1 this
  have := shown_valid (h3 x hx) (inputLines_valid hs _ (h2.subset (List.mem_map_of_mem hx)))
  rw [e] at this
  exact this

/-- C68, text mode: the text output for valid UTF-8 is valid UTF-8. -/
theorem C68_text (L : Locale) (f : Filter) (s : Str) (p : TParser) (h : TextResult L f s p) (hs : ValidUtf8 s) :
    ValidUtf8 p.outputText := by
  have hl := text_valid h hs
  unfold TParser.outputText
  generalize p.lines = ls at hl
  clear h
  induction ls with
  | nil => exact .nil
  | cons l ls ih =>
    rw [List.flatMap_cons]
    exact ((hl l (by simp)).append (.one (by decide))).append (ih fun x hx => hl x (by simp [hx]))

/-- C68, text mode: the JSON output for valid UTF-8 is valid UTF-8. -/
theorem C68_text_json (L : Locale) (f : Filter) (s : Str) (p : TParser) (time : Int) (h : TextResult L f s p) (hs : ValidUtf8 s) :
    ValidUtf8 (p.outputJson time) := by
  have htx := text_valid h hs
  have hseen : ∀ t ∈ seen f s, ValidUtf8 t.text := seen_valid hs
  have hlab : ∀ l ∈ p.lines, l.isLabel = true → ValidUtf8 l.label := by
    obtain ⟨D, h1, h2, -⟩ := C62_references_partial L f s p h
    intro l hl hi
    obtain ⟨raw, -, t, inl, -, hd⟩ := h1 _ (h2 l hl hi)
    exact .ascii (defines_low hd)
  have hfile : ∀ l ∈ p.lines, 0 < l.source.line → ValidUtf8 l.source.file.s := by
    intro l hl hp
    by_cases ht : l.text = []
    · rw [(blank_result h l hl ht).1]; exact .nil
    obtain ⟨zs, h1, -, h3⟩ := C60_positions_partial L f s p h
    have : l ∈ p.lines.filter (fun l => l.text ≠ []) := List.mem_filter.2 ⟨hl, by simpa using ht⟩
    rw [← h1] at this
    obtain ⟨⟨l', k, m⟩, hz, rfl⟩ := List.mem_map.1 this
    obtain ⟨-, -, -, -, -, -, q, hq, hsh⟩ := h3 _ _ _ hz
    unfold TLine.shownSource at hsh
    rw [if_pos hp] at hsh
    exact shownAs_valid hq hsh hseen fun x hx => hseen x (List.mem_of_mem_take hx)
  have hsect : ∀ l ∈ p.lines, ValidUtf8 l.sect.s := by
    intro l hl
    by_cases ht : l.text = []
    · rw [(blank_result h l hl ht).2]; exact .nil
    obtain ⟨zs, h1, -, h3⟩ := C61_sections_partial L f s p h
    have : l ∈ p.lines.filter (fun l => l.text ≠ []) := List.mem_filter.2 ⟨hl, by simpa using ht⟩
    rw [← h1] at this
    obtain ⟨⟨l', k⟩, hz, rfl⟩ := List.mem_map.1 this
    exact .ascii (sectionAt_low (h3 _ _ hz).2)
  refine write_valid _ ?_ ?_
  · intro l hl
    obtain ⟨l, hl', rfl⟩ := List.mem_map.1 hl
    replace hl := hl'
    clear hl'
    refine ⟨htx l hl, hsect l hl, hfile l hl, fun r hr => ?_, fun o ho => by simp [TLine.toAsm] at ho⟩
    obtain ⟨raw, -, t, inl, -, hd⟩ := C37_references_defined L f s p h l hl r hr
    exact .ascii (defines_low hd)
  · have : ∀ (ls : List TLine) (n : Nat), (∀ l ∈ ls, l.isLabel = true → ValidUtf8 l.label) →
        ∀ x ∈ redetermineLabels n ls, ValidUtf8 x.1 := by
      intro ls
      induction ls with
      | nil => intro n _ x hx; simp [redetermineLabels] at hx
      | cons l ls ih =>
        intro n hl x hx
        have hl' := fun y hy => hl y (List.mem_cons_of_mem _ hy)
        unfold redetermineLabels at hx
        split at hx
        · rename_i hi
          rcases List.mem_cons.1 hx with rfl | hx
          · exact hl l (by simp) hi
          · exact ih _ hl' x hx
        · exact ih _ hl' x hx
    exact this _ _ hlab

/-- Characters that are not ASCII in a file name, in a string and in a comment. -/
def utf8Asm : Str :=
  b! " .file 1 \"/" ++ utf8Encode 0x4e2d ++ b! ".c\"\nmain:\n .loc 1 5\n nop # " ++ utf8Encode 0xfc ++
  b! "\n.section .rodata\ns:\n .string \"" ++ utf8Encode 0x1f600 ++ b! "\"\n"

example : ValidUtf8 utf8Asm ∧ ∃ p, TextResult Locale.utf8 {} utf8Asm p ∧
    (p.lines.map (fun l => (l.text, l.source.file.s, l.sect.s))).drop 3 =
      [(b! " nop # ü", b! "/中.c", []), (b! ".section .rodata", [], b! ".rodata"),
       (b! "s:", [], b! ".rodata"), (b! " .string \"😀\"", [], b! ".rodata")] := by
  refine ⟨?_, textRun_exists (by decide +kernel)⟩
  unfold utf8Asm
  exact .append (.append (.append (.append (.append (.append (.ascii (by decide +kernel)) (.encode (by unfold Scalar; decide)))
    (.ascii (by decide +kernel))) (.encode (by unfold Scalar; decide))) (.ascii (by decide +kernel))) 
    (.encode (by unfold Scalar; decide))) (.ascii (by decide +kernel))

end AsmParser
