/-
Specification for C97: lines that differ only in the number of blanks between words.
-/
import Verif.Spec.Sources
import Verif.Spec.TextMode
import Verif.Model.Json

namespace AsmParser

/-- The text with each run of blanks replaced by a single space. -/
def oneBlank : Str → Str
  | [] => []
  | c :: s => if Blank c then (if ∃ d ∈ s.head?, Blank d then oneBlank s else 32 :: oneBlank s) else c :: oneBlank s

/-- The text from its first double quote on. -/
def fromQuote (s : Str) : Str := s.dropWhile fun c => c ≠ c! '"'

/-- Directives with file names in quotes. -/
def nameDirectives : List Str := [b! ".file", b! ".dbg", b! ".d2file"]

/-- The texts differ only in the number of blanks where there are some; if a file name is given in quotes, it is the same. -/
def SameWords (u v : Str) : Prop := oneBlank u = oneBlank v ∧ (StartsWithOneOf nameDirectives u → fromQuote u = fromQuote v)

/-- An indented line whose first word starts with `proc`. -/
def IndentedProc (line : Str) : Prop := ∃ bs r, bs ≠ [] ∧ Blanks bs ∧ line = bs ++ b! "proc" ++ r

/-- Squashing the blanks of the line (C26), after its tabs are expanded (C24), keeps its words apart.  If there are `gaps` (lines with
nothing but blanks) in the input, this is required also for the line behind the blanks of them; and, if the line has a colon, without its
leading white space (labels in inline assembly are moved to the left). -/
def EvenlySpaced (gaps : Prop) (l : Str) : Prop :=
  ∀ ws sp t, Blanks ws → (ws = [] ∨ gaps) → ws ++ l = sp ++ t → (∀ c ∈ sp, Space c) → (sp = [] ∨ c! ':' ∈ l) →
    SameWords (squashHorizontalWhitespaceWithQuotes (expandTabs t) true) (expandTabs t) ∧ ¬ IndentedProc (expandTabs t)

/-- All lines of the input are such. -/
def EvenInput (s : Str) : Prop :=
  ∀ l ∈ inputLines s, ¬ Blanks l → EvenlySpaced (∃ b ∈ inputLines s, b ≠ [] ∧ Blanks b) l

/-- A simple form of such lines.  A string literal may stand at the end.  The first word has at least two characters, or is the only word;
or the line has no colon and is indented by a tab or two blanks.  If the first word begins with `proc`, the line is not indented. -/
def PlainlySpaced (gaps : Prop) (l : Str) : Prop :=
  ∃ bs c r q, l = bs ++ c :: r ++ q ∧ Blanks bs ∧ ¬ Space c ∧ (b! "proc" <+: c :: r ++ q → bs = [] ∧ ¬ gaps) ∧ c! '"' ∉ c :: r ∧
    (q = [] ∨ ∃ m, q = c! '"' :: m ++ b! "\"" ∧ ∀ d ∈ m, d ≠ c! '"' ∧ d ≠ c! '\\' ∧ d ≠ 9) ∧
    ((∀ d ∈ r.head?, ¬ Blank d) ∨ (c! ':' ∉ l ∧ ((∃ b, bs = 9 :: b) ∨ 2 ≤ bs.length)))

/-! ### What does not depend on the number of blanks -/

/-- With single blanks, and without the columns of the references. -/
def AsmLine.worded (l : AsmLine) : AsmLine := { l with text := oneBlank l.text, labels := l.labels.map fun r => ({ name := r.name } : AsmLabel) }

/-- The document with single blanks, without the columns of the references and whether the filter `whitespace` was set. -/
def JsonDoc.worded (d : JsonDoc) : JsonDoc := { d with filter := { d.filter with whitespace := false }, lines := d.lines.map AsmLine.worded }

end AsmParser
