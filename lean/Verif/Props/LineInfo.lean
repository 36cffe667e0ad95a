/-
C87, C88: what `objdump` says about the source, and the bytes of the instructions, do not change what binary mode shows.
-/
import Verif.Proofs.LineInfo
import Verif.Props.Decode

namespace AsmParser

/-! ### C87 -/

/-- C87 (partial): without `library_functions`, leaving out the lines that `objdump -l` adds changes nothing but the source
positions of the output lines; in particular the text is the same.  (`WithoutInfo` is in `Spec/LineInfo.lean`.  Carriage returns:
see C04.)  Missing: names with two colons in them, see `C87_violation`. -/
theorem C87_line_numbers_partial (L : Locale) (f : Filter) (ls ls' : List Str) (t : Str) (hlib : f.libraryFunctions = false)
    (h : WithoutInfo ls ls') (h1 : ∀ l ∈ ls, (10 : Byte) ∉ l ∧ (13 : Byte) ∉ l) (ht : (10 : Byte) ∉ t) :
    let p := objParse L f (unlines ls ++ t)
    let p' := objParse L f (unlines ls' ++ t)
    p.lines.map unplaced = p'.lines.map unplaced ∧ p.labels = p'.labels ∧ p.outputText = p'.outputText := by
  intro p p'
  have hsub : ∀ l ∈ ls', l ∈ ls := by
    induction h with
    | nil => simp
    | same _ ih =>
      intro l hl
      simp only [List.mem_cons] at hl ⊢
      exact hl.imp_right (ih (fun l hl => h1 l (by simp [hl])) l)
    | info _ _ ih =>
      intro l hl
      exact List.mem_cons_of_mem _ (ih (fun l hl => h1 l (by simp [hl])) l hl)
  obtain ⟨R, -, hR⟩ := C73_every_line L
  obtain ⟨a1, a2⟩ := hR f ls t (fun l hl => (h1 l hl).1) ht
  obtain ⟨b1, b2⟩ := hR f ls' t (fun l hl => (h1 l (hsub l hl)).1) ht
  have hφ : ∀ l l', unplaced l = unplaced l' → l.isLabel = l'.isLabel ∧ l.label = l'.label := by
    intro l l' e
    exact ⟨by simpa [unplaced] using congrArg AsmLine.isLabel e, by simpa [unplaced] using congrArg AsmLine.label e⟩
  have key := same_pages (φ := unplaced) (lib := f.libraryFunctions) hφ (fun e => by rw [hlib] at e; cases e)
    (withoutInfo_shown (R := R) (drop := leftOut f.plt) h (fun l hl => (h1 l hl).2) (c := {}) (c' := {}) rfl)
    (b := {}) (b' := {}) ⟨rfl, rfl, rfl, rfl⟩
  rw [← decodeLines_all, ← decodeLines_all] at key
  have e1 : p.lines.map unplaced = p'.lines.map unplaced := by
    show (objParse L f (unlines ls ++ t)).lines.map unplaced = (objParse L f (unlines ls' ++ t)).lines.map unplaced
    rw [a1, b1]
    exact key.lines
  refine ⟨e1, ?_, ?_⟩
  · show (objParse L f (unlines ls ++ t)).labels = (objParse L f (unlines ls' ++ t)).labels
    rw [a2, b2, key.extra]
    congr 1
    exact labelTable_of_map hφ 1 e1
  · unfold OParser.outputText
    have hm : ∀ q : List AsmLine, q.flatMap (fun l => l.text ++ [10]) = (q.map unplaced).flatMap (fun l => l.text ++ [10]) := by
      intro q; rw [List.flatMap_map]; rfl
    rw [hm p.lines, hm p'.lines, e1]

/-- A listing with positions, as GNU and LLVM write them. -/
def infoLines : List Str :=
  [b! "1000 <main>:", b! "main():", b! "/app/a.cpp:3 (discriminator 1)", b! "  1000:\tc3                   \tret", b! "; ./b.h:7",
   b! "  1001:\t90                   \tnop"]

example : WithoutInfo infoLines [b! "1000 <main>:", b! "  1000:\tc3                   \tret", b! "  1001:\t90                   \tnop"] := by
  refine .same (.info (.name (m := []) (w := b! "main()") (by simp [MarginOnly]) ?_ ?_)
    (.info (.position (m := []) (w := []) (b := b! "app/a.cpp:3 (discriminator 1)") (by simp [MarginOnly]) ?_ ?_)
      (.same (.info (.position (m := b! "; ") (w := b! ".") (b := b! "b.h:7") ?_ ?_ ?_) (.same .nil)))))
  · unfold OneWord; decide
  · exact ⟨c! 'm', by decide, by unfold HexDigit; decide, by decide⟩
  · unfold OneWord; decide
  · decide
  · unfold MarginOnly; decide
  · unfold OneWord; decide
  · decide

example : (objParse .utf8 {} (unlines infoLines)).outputText = b! "main:\n ret\n nop\n" ∧
    (objParse .utf8 {} (unlines infoLines)).lines.map (·.source.line) = [0, 3, 7] := by decide +kernel

/-- The name of a function with a scope in front may look like an instruction.  With `library_functions` the positions do matter,
as they should. -/
theorem C87_violation :
    (objParse .utf8 {} b! "1000 <f>:\na::f():\n 1000:\tc3    \tret\n").outputText = b! "f:\n :f():\n ret\n" ∧
    (objParse .utf8 {} b! "1000 <f>:\n 1000:\tc3    \tret\n").outputText = b! "f:\n ret\n" ∧
    (objParse .utf8 { libraryFunctions := true } b! "10 <f>:\n/a.c:1\n 10:\tc3    \tret\n20 <g>:\n").outputText = b! "f:\n ret\ng:\n" ∧
    (objParse .utf8 { libraryFunctions := true } b! "10 <f>:\n 10:\tc3    \tret\n20 <g>:\n").outputText = b! "g:\n" := by
  refine ⟨?_, ?_, ?_, ?_⟩ <;> decide +kernel

/-! ### C88 -/

/-- C88 (partial): leaving out the bytes of instructions (`objdump --no-show-raw-insn`) changes nothing in the output but the bytes,
for all filters; in particular the text is the same.  (`WithoutBytes` is in `Spec/LineInfo.lean`.)  Missing: texts that look like
bytes, see `C88_violation`. -/
theorem C88_bytes_partial (L : Locale) (f : Filter) (ls ls' : List Str) (t : Str) (h : WithoutBytes ls ls')
    (h1 : ∀ l ∈ ls, (10 : Byte) ∉ l ∧ (13 : Byte) ∉ l) (ht : (10 : Byte) ∉ t) :
    let p := objParse L f (unlines ls ++ t)
    let p' := objParse L f (unlines ls' ++ t)
    p.lines.map byteless = p'.lines.map byteless ∧ p.labels = p'.labels ∧ p.outputText = p'.outputText := by
  intro p p'
  have hsub : ∀ l ∈ ls', (10 : Byte) ∉ l := by
    induction h with
    | nil => simp
    | same _ ih =>
      intro l hl
      simp only [List.mem_cons] at hl
      rcases hl with rfl | hl
      · exact (h1 _ (by simp)).1
      · exact ih (fun l hl => h1 l (by simp [hl])) l hl
    | bytes _ _ _ _ _ _ _ _ ih =>
      intro l hl
      simp only [List.mem_cons] at hl
      rcases hl with rfl | hl
      · intro hx
        refine (h1 _ List.mem_cons_self).1 ?_
        simp only [List.mem_append, List.mem_cons] at hx ⊢
        rcases hx with (hx | hx) | hx | hx | hx
        · exact .inl (.inl hx)
        · exact .inl (.inr hx)
        · exact .inr (.inl hx)
        · exact .inr (.inr (.inl (.inl hx)))
        · exact .inr (.inr (.inr (.inr (.inr hx))))
      · exact ih (fun l hl => h1 l (by simp [hl])) l hl
  obtain ⟨R, -, hR⟩ := C73_every_line L
  obtain ⟨a1, a2⟩ := hR f ls t (fun l hl => (h1 l hl).1) ht
  obtain ⟨b1, b2⟩ := hR f ls' t hsub ht
  have hφ : ∀ l l', byteless l = byteless l' → l.isLabel = l'.isLabel ∧ l.label = l'.label := by
    intro l l' e
    exact ⟨by simpa [byteless] using congrArg AsmLine.isLabel e, by simpa [byteless] using congrArg AsmLine.label e⟩
  have key := same_pages (φ := byteless) (lib := f.libraryFunctions) hφ
    (fun _ l l' e => by
      have := congrArg AsmLine.source e
      simp only [byteless] at this
      rw [this])
    (withoutBytes_shown (R := R) (drop := leftOut f.plt) h (fun l hl => (h1 l hl).2) {})
    (b := {}) (b' := {}) ⟨rfl, rfl, rfl, rfl⟩
  rw [← decodeLines_all, ← decodeLines_all] at key
  have e1 : p.lines.map byteless = p'.lines.map byteless := by
    show (objParse L f (unlines ls ++ t)).lines.map byteless = (objParse L f (unlines ls' ++ t)).lines.map byteless
    rw [a1, b1]
    exact key.lines
  refine ⟨e1, ?_, ?_⟩
  · show (objParse L f (unlines ls ++ t)).labels = (objParse L f (unlines ls' ++ t)).labels
    rw [a2, b2, key.extra]
    congr 1
    exact labelTable_of_map hφ 1 e1
  · unfold OParser.outputText
    have hm : ∀ q : List AsmLine, q.flatMap (fun l => l.text ++ [10]) = (q.map byteless).flatMap (fun l => l.text ++ [10]) := by
      intro q; rw [List.flatMap_map]; rfl
    rw [hm p.lines, hm p'.lines, e1]

/-- A call with and without its bytes. -/
def bytesLine : Str := b! "  1000:\te8 12 00             \tcall   1017 <f>"
/-- The same without. -/
def bytelessLine : Str := b! "  1000:\tcall   1017 <f>"

example : WithoutBytes [bytesLine] [bytelessLine] := by
  refine .bytes (m := b! "  ") (a := b! "1000") (bs := [9]) (w := b! "e8 12 00") (bs' := b! "            \t") (t := b! "call   1017 <f>")
    ?_ ?_ (by decide) ?_ (by decide) ⟨?_, ⟨c! 'e', rfl, ?_⟩, ⟨c! '0', rfl, ?_⟩, ?_⟩ ?_ .nil
  · unfold MarginOnly; decide
  · unfold HexDigit; decide
  · decide
  · unfold HexDigit; decide
  · unfold HexDigit; decide
  · unfold HexDigit; decide
  · intro a b e
    have : ∀ i, (b! "e8 12 00")[i]? = some c! ' ' → (b! "e8 12 00")[i + 1]? ≠ some c! ' ' := by
      intro i hi
      rcases Nat.lt_or_ge i 8 with h | h
      · exact (by decide : ∀ i : Fin 8, (b! "e8 12 00")[i.1]? = some c! ' ' → (b! "e8 12 00")[i.1 + 1]? ≠ some c! ' ') ⟨i, h⟩ hi
      · rw [List.getElem?_eq_none (by simpa using h)] at hi; cases hi
    refine this a.length ?_ ?_ <;> rw [e] <;> simp
  · refine .intro (h := b! "ca") (x := c! 'l') (r := b! "l   1017 <f>") ?_ ?_ ?_ (by decide) (by unfold HexDigit; decide)
    · unfold HexDigit; decide
    · intro c hc; simp at hc; subst hc; unfold HexDigit; decide
    · intro a b c e
      have : c! ' ' ∈ b! "ca" := by rw [e]; simp
      exact absurd this (by decide)

example : (objParse .utf8 {} (unlines [bytesLine])).outputText = b! " call   1017 <f>\n" ∧
    (objParse .utf8 {} (unlines [bytelessLine])).outputText = b! " call   1017 <f>\n" := by decide +kernel

/-- A mnemonic of the letters `a` to `f`, followed by two spaces, is taken for the bytes. -/
theorem C88_violation :
    (objParse .utf8 {} b! " 1000:\t48 01 c3             \tadd    %rax,%rbx\n").lines.map (fun l => (l.text, l.opcodes)) =
      [(b! " add    %rax,%rbx", [b! "48", b! "01", b! "c3"])] ∧
    (objParse .utf8 {} b! " 1000:\tadd    %rax,%rbx\n").lines.map (fun l => (l.text, l.opcodes)) = [(b! " %rax,%rbx", [b! "add"])] := by
  refine ⟨?_, ?_⟩ <;> decide +kernel

end AsmParser
