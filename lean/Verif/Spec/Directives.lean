/-
Specification: the forms of assembly lines that text mode recognises.
-/
import Verif.Spec.Text

namespace AsmParser

def Letter (c : Byte) : Prop := (c! 'a' ≤ c ∧ c ≤ c! 'z') ∨ (c! 'A' ≤ c ∧ c ≤ c! 'Z')
def Digit (c : Byte) : Prop := c! '0' ≤ c ∧ c ≤ c! '9'

/-- The first character of a symbol. -/
def SymbolStart (c : Byte) : Prop := Letter c ∨ c = c! '_' ∨ c = c! '.'
/-- The other characters of a symbol. -/
def SymbolChar (c : Byte) : Prop := Letter c ∨ Digit c ∨ c = c! '_' ∨ c = c! '.' ∨ c = c! '$'
/-- The characters of a label in a label definition. -/
def LabelChar (c : Byte) : Prop := SymbolChar c ∨ c = c! '@'
/-- White space of any kind. -/
def Space (c : Byte) : Prop := c = 32 ∨ (9 ≤ c ∧ c ≤ 13)

def Blanks (s : Str) : Prop := ∀ c ∈ s, Blank c

instance (s : Str) : Decidable (Blanks s) := inferInstanceAs (Decidable (∀ c ∈ s, Blank c))

/-- A symbol. -/
def Symbol (s : Str) : Prop := ∃ c t, s = c :: t ∧ SymbolStart c ∧ ∀ d ∈ t, SymbolChar d

/-- `l:` at the beginning of the line, possibly after `.proc` (or any other character before `proc`). -/
def DefinesLabel (line l : Str) : Prop :=
  l ≠ [] ∧ (∀ c ∈ l, LabelChar c) ∧
    ((∃ r, line = l ++ c! ':' :: r) ∨
     ∃ x bs r, line = x :: b! "proc" ++ bs ++ l ++ c! ':' :: r ∧ bs ≠ [] ∧ Blanks bs)

/-- The directives that place data. -/
def dataDirectives : List Str :=
  [b! ".string", b! ".asciz", b! ".ascii", b! ".base64", b! ".byte", b! ".1byte", b! ".2byte", b! ".4byte", b! ".8byte",
   b! ".short", b! ".half", b! ".word", b! ".dword", b! ".hword", b! ".xword", b! ".long", b! ".quad", b! ".octa",
   b! ".value", b! ".zero"]

/-- The line starts with one of the given words. -/
def StartsWithOneOf (kws : List Str) (line : Str) : Prop := ∃ bs kw r, Blanks bs ∧ kw ∈ kws ∧ line = bs ++ kw ++ r

/-- The line is one of the words `kws`, then the symbol `l`, which ends where the symbol characters end. -/
def DeclaresSymbol (kws : List Str) (line l : Str) : Prop :=
  ∃ bs kw bs' r, Blanks bs ∧ kw ∈ kws ∧ Blanks bs' ∧ Symbol l ∧ (∀ c ∈ r.head?, ¬ SymbolChar c) ∧
    line = bs ++ kw ++ bs' ++ l ++ r

def globalDirectives : List Str := [b! ".global", b! ".globl", b! ".GLB", b! ".export"]

/-- `.type l, @function` (or `object` or `proc`) at the end of `s`. -/
def TypeDirective (s l : Str) : Prop :=
  ∃ bs bs' at_ kind, Blanks bs ∧ (∀ c ∈ l, Letter c ∨ Digit c ∨ c = c! '_') ∧ Blanks bs' ∧ (at_ = [] ∨ at_ = b! "@") ∧
    kind ∈ [b! "function", b! "object", b! "proc"] ∧ s = b! ".type" ++ bs ++ l ++ b! "," ++ bs' ++ at_ ++ kind

/-- The first `.type` directive of the line is about `l`. -/
def FirstTypeDirective (line l : Str) : Prop :=
  ∃ u w r, line = u ++ w ++ r ∧ TypeDirective w l ∧
    ∀ u' w' r' l', line = u' ++ w' ++ r' → TypeDirective w' l' → u.length ≤ u'.length

/-- `l =` at the beginning of the line (a symbol that may start with any symbol character and has no further
dots or dollars). -/
def AssignsLabel (line l : Str) : Prop :=
  ∃ c t bs r, l = c :: t ∧ SymbolChar c ∧ (∀ d ∈ t, Letter d ∨ Digit d ∨ d = c! '_') ∧ bs ≠ [] ∧ Blanks bs ∧
    line = l ++ bs ++ c! '=' :: r

/-- A line that is only a comment: `#`, `@`, `//` to the end of the line, `/* … */`, or `;` to the end of the
line, except `;;` followed by nothing but white space. -/
def OnlyComment (line : Str) : Prop :=
  ∃ bs t, Blanks bs ∧ line = bs ++ t ∧
    (b! "#" <+: t ∨ b! "@" <+: t ∨ b! "//" <+: t ∨ (∃ x, t = b! "/*" ++ x ++ b! "*/") ∨
     ∃ r, t = c! ';' :: r ∧ ¬ ∃ ws, r = c! ';' :: ws ∧ ∀ c ∈ ws, Space c)

end AsmParser
