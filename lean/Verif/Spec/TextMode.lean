/-
Specification vocabulary for text mode.
-/
import Verif.Spec.Directives
import Verif.Spec.Objdump
import Verif.Model.AsmText

namespace AsmParser

/-- The lines of a text; `cur` is the beginning of the first one.  An unterminated last line counts unless it is empty. -/
def inputLinesFrom : Str → Str → List Str
  | cur, [] => if cur = [] then [] else [cur]
  | cur, c :: s => if c = 10 then cur :: inputLinesFrom [] s else inputLinesFrom (cur ++ [c]) s

def inputLines (s : Str) : List Str := inputLinesFrom [] s

/-- The characters that are not white space. -/
def ink (s : Str) : Str := s.filter fun c => ¬ (c = 32 ∨ (9 ≤ c ∧ c ≤ 13))

/-- `w` occurs in `s`. -/
def Contains (s w : Str) : Prop := ∃ a b, s = a ++ w ++ b

/-- `l =` is the whole line, possibly indented: at least two symbol characters, the first one no digit. -/
def AssignsOnly (line l : Str) : Prop :=
  ∃ bs bs' c t, Blanks bs ∧ Blanks bs' ∧ l = c :: t ∧ (SymbolStart c ∨ c = c! '$') ∧ t ≠ [] ∧ (∀ d ∈ t, SymbolChar d) ∧
    line = bs ++ l ++ bs' ++ b! "="

/-- A CUDA function header: `.entry name(` or `.func name(`, possibly with a parenthesised return value before the name, at
the end of the line. -/
def CudaHeader (line kind : Str) : Prop :=
  ∃ a bs ret c t, kind ∈ [b! "entry", b! "func"] ∧ bs ≠ [] ∧ Blanks bs ∧
    (ret = [] ∨ ∃ x bs', ret = b! "(" ++ x ++ b! ")" ++ bs' ∧ (∀ d ∈ x, d ≠ c! ')') ∧ Blanks bs') ∧
    (SymbolStart c ∨ c = c! '$') ∧ (∀ d ∈ t, SymbolChar d) ∧
    line = a ++ b! "." ++ kind ++ bs ++ ret ++ (c :: t) ++ b! "("

/-- The line defines or assigns the label `l`.  (For a CUDA header the parser takes the keyword for the label.) -/
def DefinesOrAssigns (line l : Str) : Prop :=
  DefinesLabel line l ∨ AssignsLabel line l ∨ AssignsOnly line l ∨ CudaHeader line l

/-- A line with source information: one of the directives of DWARF, stabs, 6502 and D2 debug information, with an
argument. -/
def SourceDirective (line : Str) : Prop :=
  ∃ bs kw bs' c r, Blanks bs ∧ kw ∈ [b! ".file", b! ".loc", b! ".stabn", b! ".dbg", b! ".d2line", b! ".d2file"] ∧
    bs' ≠ [] ∧ Blanks bs' ∧ ¬ Blank c ∧ c ≠ c! '=' ∧ line = bs ++ kw ++ bs' ++ c :: r

/-- A directive: a dot is the first character except blanks. -/
def Directive (line : Str) : Prop := ∃ bs r, Blanks bs ∧ line = bs ++ c! '.' :: r

/-- `p` is the state of a new text-mode parser with filter `f` after it has parsed `s`, for some iteration order of the hash
containers, some contents of the thread-local set of visited labels, and any number of steps that suffices. -/
def TextResult (L : Locale) (f : Filter) (s : Str) (p : TParser) : Prop :=
  ∃ o n v v', (TParser.init f).fromStream L o n s v = some (p, v')

/-- What text mode does to the text of a line: tabs are expanded (C24), then blanks are squashed (C26) if the filter
`whitespace` is set. -/
def cleaned (f : Filter) (t : Str) : Str :=
  if f.whitespace then squashHorizontalWhitespaceWithQuotes (expandTabs t) true else expandTabs t

/-- `t` is how the input line `raw` is shown: cleaned, possibly with additional blanks before it (from earlier lines that have
nothing but blanks), and possibly without leading white space if it is inline assembly. -/
def Shown (f : Filter) (t : Str) (inlineAsm : Bool) (raw : Str) : Prop :=
  ∃ ws sp t', Blanks ws ∧ ws ++ raw = sp ++ t' ∧ (∀ c ∈ sp, Space c) ∧ (sp = [] ∨ inlineAsm = true) ∧ t = cleaned f t'

/-- No line of `s` starts inline assembly. -/
def NoInlineAsm (s : Str) : Prop :=
  ∀ line ∈ inputLines s, ∀ bs r, Blanks bs → line ≠ bs ++ b! "#APP" ++ r ∧ line ≠ bs ++ b! "# Begin ASM" ++ r

/-- No line of the input has the keyword of a CUDA function header. -/
def NoCuda (s : Str) : Prop := ∀ line ∈ inputLines s, ¬ Contains (ink line) b! ".entry" ∧ ¬ Contains (ink line) b! ".func"

/-- Remove empty lines at the beginning and all but one of consecutive empty lines. -/
def collapseFrom : Bool → List Str → List Str
  | _, [] => []
  | prevEmpty, l :: ls =>
    if l = [] then (if prevEmpty then collapseFrom true ls else [] :: collapseFrom true ls) else l :: collapseFrom false ls

def collapse (ls : List Str) : List Str := collapseFrom true ls

/-! ### Which lines are shown -/

/-- Does `w` occur in the text?  (As a program; compare `Contains`.) -/
def occurs (w : Str) : Str → Bool
  | [] => w.isEmpty
  | c :: s => w.isPrefixOf (c :: s) || occurs w s

/-- Is `/*` the first thing in the line except blanks? -/
def opensComment (line : Str) : Bool := (b! "/*").isPrefixOf (line.dropWhile fun c => c = 32 || c = 9)

/-- The lines outside block comments.  A block comment starts at a line that has nothing but blanks before `/*` and ends with
the first line, this one or a later one, that contains `*/`.  `inside`: is the first line inside a block comment? -/
def outsideComments : Bool → List Str → List Str
  | _, [] => []
  | inside, l :: ls =>
    if inside || opensComment l then outsideComments (!occurs b! "*/" l) ls else l :: outsideComments false ls

/-- A directive that neither defines or assigns a label nor places data nor mentions `.inst`. -/
def PlainDirective (line : Str) : Prop :=
  Directive line ∧ (∀ l, ¬ DefinesOrAssigns line l) ∧ ¬ StartsWithOneOf dataDirectives line ∧ ¬ Contains line b! ".inst"

/-- Is the line shown, as far as it alone decides? -/
def Visible (f : Filter) (line : Str) : Prop :=
  (f.commentOnly = true → ¬ OnlyComment line) ∧ (f.directives = true → ¬ PlainDirective (cleaned f line))

end AsmParser
