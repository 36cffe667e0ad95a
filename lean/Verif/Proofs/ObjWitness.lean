/-
Helper lemmas: listings of arbitrary length for the objdump parser, used as witnesses.
-/
import Verif.Proofs.ObjLines

namespace AsmParser

/-- `n` lines `:x`. -/
def xLines : Nat → Str
  | 0 => []
  | n + 1 => b! ":x\n" ++ xLines n

/-- The output line for `:x`. -/
def xLine : AsmLine := { text := b! " x" }

/-- The parser after `n` of those lines. -/
def xParser (f : Filter) (n : Nat) : OParser :=
  { filter := f, st := { inAddress := true }, lines := List.replicate n xLine, totalLines := n }

theorem xParser_step (L : Locale) (f : Filter) (n : Nat) (h : n < 5000) :
    (b! ":x\n").foldl (OParser.feed L) (xParser f n) = xParser f (n + 1) := by
  have h' : n < maxLines := h
  simp [xParser, OParser.feed, OState.step, OState.stepAddress, OState.address, OState.stepText, append_eq,
    appText, isWhitespace, OParser.eol, OParser.eolTail, h', OState.commonReset, OState.finishLine, xLine,
    List.replicate_succ']

theorem xLines_parse (L : Locale) (f : Filter) (n m : Nat) (h : n + m ≤ 5000) :
    (xLines m).foldl (OParser.feed L) (xParser f n) = xParser f (n + m) := by
  induction m generalizing n with
  | zero => rfl
  | succ m ih =>
    rw [xLines, List.foldl_append, xParser_step L f n (by omega), ih (n + 1) (by omega)]
    congr 1; omega

theorem objParse_xLines (L : Locale) (f : Filter) (n : Nat) (h : n ≤ 5000) :
    objParse L f (xLines n) = xParser f n := by
  rw [objParse_eq]
  have := xLines_parse L f 0 n (by omega)
  rw [Nat.zero_add] at this
  exact this

/-- A parser at a line boundary without any labels. -/
def rdy (f : Filter) (ls : List AsmLine) : OParser :=
  { filter := f, st := { inAddress := true }, lines := ls, totalLines := ls.length }

theorem rdy_capped (L : Locale) (f : Filter) (ls : List AsmLine) (hl : ls.length = 5000) :
    ((b! ":x\n").foldl (OParser.feed L) (rdy f ls)).lines = ls ++ [markerLine] := by
  have h' : ¬ ls.length < maxLines := by simp [maxLines, hl]
  simp [rdy, OParser.feed, OState.step, OState.stepAddress, OState.address, OState.stepText, append_eq,
    appText, isWhitespace, OParser.eol, OParser.eolTail, h', markerLine, truncatedText]

/-- One more ordinary line stops the parser. -/
theorem objParse_capped (L : Locale) (f : Filter) :
    (objParse L f (xLines 5000 ++ b! ":x\n")).lines = List.replicate 5000 xLine ++ [markerLine] := by
  rw [objParse_append, objParse_xLines L f 5000 (Nat.le_refl _)]
  have e : xParser f 5000 = rdy f (List.replicate 5000 xLine) := by
    unfold xParser rdy; rw [List.length_replicate]
  rw [e]
  exact rdy_capped L f _ List.length_replicate

theorem ignore_f (f : Filter) : shouldIgnoreFunction b! "f" f = false := by
  have h1 : (Regexes.binaryIgnoreFunction.search b! "f").isSome = false := by decide +kernel
  have h2 : (Regexes.pltFunction.search b! "f").isSome = false := by decide +kernel
  have h3 : endsWith b! "f" b! "@plt" = false := by decide
  have h4 : endsWith b! "f" b! "@plt>" = false := by decide
  simp only [shouldIgnoreFunction, h1, h2, h3, h4]
  simp

theorem rdy_cappedLabel (L : Locale) (f : Filter) (h : f.libraryFunctions = false) (ls : List AsmLine)
    (hl : ls.length = 5000) :
    ((b! "0 <f>:\n").foldl (OParser.feed L) (rdy f ls)).lines = ls ++ [markerLine] ∧
    ((b! "0 <f>:\n").foldl (OParser.feed L) (rdy f ls)).labels = [(b! "f", 5001)] := by
  have h' : ¬ 5000 < maxLines := by simp [maxLines]
  have hx : isHex 48 = true := by decide
  have hx2 : hex2int 48 = 0 := by decide
  have hi := ignore_f f
  have h2 : getLabelFromObjdumpLabel b! "<f>:" = some b! "f" := by decide
  simp [rdy, OParser.feed, OState.step, OState.stepAddress, OState.address, append_eq,
    appText, isWhitespace, OParser.eol, OParser.eolTail, h', markerLine, truncatedText,
    OState.actuallyAddress, addrLoop, hx, hx2, OParser.label, h2, h, hi, hl]

/-- A function header as line 5001. -/
theorem objParse_cappedLabel (L : Locale) (f : Filter) (h : f.libraryFunctions = false) :
    (objParse L f (xLines 5000 ++ b! "0 <f>:\n")).lines = List.replicate 5000 xLine ++ [markerLine] ∧
    (objParse L f (xLines 5000 ++ b! "0 <f>:\n")).labels = [(b! "f", 5001)] := by
  rw [objParse_append, objParse_xLines L f 5000 (Nat.le_refl _)]
  have e : xParser f 5000 = rdy f (List.replicate 5000 xLine) := by
    unfold xParser rdy; rw [List.length_replicate]
  rw [e]
  exact rdy_cappedLabel L f h _ List.length_replicate

end AsmParser
