/-
C89: the result does not depend on the locale.
-/
import Verif.Proofs.Locales
import Verif.Props.Decode
import Verif.Spec.TextSamples

namespace AsmParser

/-- C89 for text mode: in all locales in which an ASCII character is one byte, the results are the same, for all inputs (which need not be ASCII). -/
theorem C89_text (L L' : Locale) (hL : L.Ascii) (hL' : L'.Ascii) (f : Filter) (s : Str) (p : TParser) :
    TextResult L f s p ↔ TextResult L' f s p := by
  unfold TextResult
  rw [fromStream_locale hL hL']

/-- C89 for binary mode and ASCII inputs. -/
theorem C89_ascii (L L' : Locale) (hL : L.Ascii) (hL' : L'.Ascii) (f : Filter) (s : Str) (hs : ∀ c ∈ s, 0 < c ∧ c < 128) :
    objParse L f s = objParse L' f s := objParse_locale hL hL' f _ s rfl hs

/-- C89 (partial) for binary mode and all inputs: whatever the locales are, the lines and the label definitions agree, except for
the references of the lines.  In particular the text output is the same. -/
theorem C89_binary_partial (L L' : Locale) (f : Filter) (s : Str) :
    (objParse L f s).lines.map (fun l => { l with labels := [] }) = (objParse L' f s).lines.map (fun l => { l with labels := [] }) ∧
    (objParse L f s).labels = (objParse L' f s).labels ∧ (objParse L f s).outputText = (objParse L' f s).outputText := by
  obtain ⟨ls, t, rfl, h1, h2⟩ := C73_all_inputs s
  obtain ⟨a1, a2⟩ := decode_parse L f ls t h1 h2
  obtain ⟨b1, b2⟩ := decode_parse L' f ls t h1 h2
  have hφ : ∀ l l', unlinked l = unlinked l' → l.isLabel = l'.isLabel ∧ l.label = l'.label := by
    intro l l' e
    exact ⟨by simpa [unlinked] using congrArg AsmLine.isLabel e, by simpa [unlinked] using congrArg AsmLine.label e⟩
  have key := same_pages (φ := unlinked) (lib := f.libraryFunctions) hφ
    (fun _ l l' e => by
      have := congrArg AsmLine.source e
      simp only [unlinked] at this
      rw [this])
    (locale_shown (L := L) (L' := L') (drop := leftOut f.plt) ls (c := {}) (c' := {}) rfl)
    (b := {}) (b' := {}) ⟨rfl, rfl, rfl, rfl⟩
  rw [← decodeLines_all, ← decodeLines_all] at key
  have e1 : (objParse L f (unlines ls ++ t)).lines.map unlinked = (objParse L' f (unlines ls ++ t)).lines.map unlinked := by
    rw [a1, b1]
    exact key.lines
  refine ⟨e1, ?_, ?_⟩
  · rw [a2, b2, key.extra]
    congr 1
    exact labelTable_of_map hφ 1 e1
  · unfold OParser.outputText
    have hm : ∀ q : List AsmLine, q.flatMap (fun l => l.text ++ [10]) = (q.map unlinked).flatMap (fun l => l.text ++ [10]) := by
      intro q; rw [List.flatMap_map]; rfl
    rw [hm, hm (objParse L' f (unlines ls ++ t)).lines, e1]

/-- A locale in which every byte is a character. -/
def Locale.bytes : Locale := ⟨fun s => match s with | [] => 0 | c :: _ => if c = 0 then 0 else 1⟩

example : Locale.bytes.Ascii := by
  intro c cs h _
  have : c ≠ 0 := by rintro rfl; exact absurd h (by decide)
  simp [Locale.bytes, this]

/-- With other characters the references differ: their columns, and even their names. -/
theorem C89_violation :
    (objParse .bytes {} b! " 1:\tc3  \tcall é <f>\n").lines.map (·.labels) = [[⟨b! "f", 11, 12⟩]] ∧
    (objParse .utf8 {} b! " 1:\tc3  \tcall é <f>\n").lines.map (·.labels) = [[⟨b! "<f", 10, 11⟩]] := by
  refine ⟨?_, ?_⟩ <;> decide +kernel

end AsmParser
