/-
Running text mode on concrete inputs, for the examples and counterexamples beside the theorems.
-/
import Verif.Spec.TextMode

namespace AsmParser

/-- Text mode on a concrete input, with hash containers iterated in insertion order. -/
def textRun (f : Filter) (s : Str) : Option TParser :=
  ((TParser.init f).fromStream Locale.utf8 Order.id 100 s []).map (·.1)

theorem textRun_result {f : Filter} {s : Str} {p : TParser} (h : textRun f s = some p) : TextResult Locale.utf8 f s p := by
  unfold textRun at h
  rw [Option.map_eq_some_iff] at h
  obtain ⟨⟨q, v⟩, h1, h2⟩ := h
  exact ⟨Order.id, 100, [], v, by rw [h1, ← h2]⟩

theorem textRun_exists {f : Filter} {s : Str} {P : TParser → Prop} [DecidablePred P]
    (h : ((textRun f s).any fun p => decide (P p)) = true) : ∃ p, TextResult Locale.utf8 f s p ∧ P p := by
  cases hr : textRun f s with
  | none => rw [hr] at h; exact absurd h (by simp)
  | some p =>
    rw [hr] at h
    exact ⟨p, textRun_result hr, by simpa using h⟩

/-- A small function as GCC prints it. -/
def sampleAsm : Str :=
  b! "\n" ++
  b! "\t.file\t\"example.cpp\"\n" ++
  b! "\t.text\n" ++
  b! "\t.globl\tsquare\n" ++
  b! "\t.type\tsquare, @function\n" ++
  b! "square:\n" ++
  b! ".LFB0:\n" ++
  b! "\t.file 1 \"./example.cpp\"\n" ++
  b! "\t.loc 1 1 21\n" ++
  b! "\t.cfi_startproc\n" ++
  b! "\tpushq\t%rbp\n" ++
  b! "\tmovl\t%edi, -4(%rbp) # comment\n" ++
  b! "# only a comment\n" ++
  b! "\tjmp\t.L2\n" ++
  b! "\n" ++
  b! "\n" ++
  b! ".L2:\n" ++
  b! "\tret\n" ++
  b! "\t.cfi_endproc\n" ++
  b! ".LC0:\n" ++
  b! "\t.string\t\"a  b\"\n" ++
  b! "\t.long\tsquare\n"

end AsmParser
