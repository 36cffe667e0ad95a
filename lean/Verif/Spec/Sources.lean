/-
Specification: which source position belongs to a line of text mode.
-/
import Verif.Spec.TextMode

namespace AsmParser

/-! ### Directives with source positions -/

/-- The value of a number, 0 if it is 2³¹ or more. -/
def numberOf (n : Str) : Int := if decVal n < 2147483648 then decVal n else 0

/-- A number, then text that does not continue it. -/
def Number (n rest : Str) : Prop := n ≠ [] ∧ (∀ c ∈ n, Digit c) ∧ ∀ c ∈ rest.head?, ¬ Digit c

/-- Text in double quotes. -/
def Quoted (s a : Str) : Prop := a ≠ [] ∧ c! '"' ∉ a ∧ s = b! "\"" ++ a ++ b! "\""

/-- The line is the word `kw`, possibly indented, then blanks and `arg`. -/
def Instructs (line kw arg : Str) : Prop := ∃ bs bs', Blanks bs ∧ bs' ≠ [] ∧ Blanks bs' ∧ line = bs ++ kw ++ bs' ++ arg

/-- `.cfi_endproc`, `.data`, `.text` or `.section`, anywhere in the line. -/
def EndsBlock (line : Str) : Prop := ∃ w ∈ [b! ".cfi_endproc", b! ".data", b! ".text", b! ".section"], Contains line w

/-- `.file n "a"` or `.file n "a" "b"`. -/
def FileDirective (line : Str) (n : Int) (name : Str) : Prop :=
  ∃ d bs q a r, Number d bs ∧ n = numberOf d ∧ bs ≠ [] ∧ Blanks bs ∧ Quoted q a ∧ Instructs line b! ".file" (d ++ bs ++ q ++ r) ∧
    ((∃ bs' q' b r', bs' ≠ [] ∧ Blanks bs' ∧ Quoted q' b ∧ r = bs' ++ q' ++ r' ∧ name = a ++ b! "/" ++ b) ∨
     ((∀ bs' q' b r', bs' ≠ [] → Blanks bs' → Quoted q' b → r ≠ bs' ++ q' ++ r') ∧ name = a))

/-- `.loc file line` or `.loc file line column`, possibly with more after it. -/
def LocLine (line : Str) (file n column : Int) : Prop :=
  ∃ a bs b r, Number a bs ∧ file = numberOf a ∧ bs ≠ [] ∧ Blanks bs ∧ Number b r ∧ n = numberOf b ∧
    Instructs line b! ".loc" (a ++ bs ++ b ++ r) ∧
    ((∃ bs' c r', bs' ≠ [] ∧ Blanks bs' ∧ Number c r' ∧ r = bs' ++ c ++ r' ∧ column = numberOf c) ∨
     ((∀ bs' c r', bs' ≠ [] → Blanks bs' → Number c r' → r ≠ bs' ++ c ++ r') ∧ column = 0))

/-- `.stabn type,0,line,…`. -/
def StabDirective (line : Str) (type n : Int) : Prop :=
  ∃ a b r, Number a [] ∧ type = numberOf a ∧ Number b [] ∧ n = numberOf b ∧
    Instructs line b! ".stabn" (a ++ b! ",0," ++ b ++ b! "," ++ r)

/-- `.dbg line, "file", line`, and nothing after it. -/
def DbgDirective (line file : Str) (n : Int) : Prop :=
  ∃ bs q bs' a, Blanks bs ∧ Quoted q file ∧ Blanks bs' ∧ Number a [] ∧ n = numberOf a ∧
    Instructs line b! ".dbg" (b! "line," ++ bs ++ q ++ b! "," ++ bs' ++ a)

/-- `.d2line line …`. -/
def D2Line (line : Str) (n : Int) : Prop := ∃ a r, Number a r ∧ n = numberOf a ∧ Instructs line b! ".d2line" (a ++ r)

/-- `.d2file "file"`; the quotes are the first and the last character of the argument. -/
def D2File (line file : Str) : Prop := Instructs line b! ".d2file" (b! "\"" ++ file ++ b! "\"")

/-- `.dbg line` at the beginning, whatever follows. -/
def DbgMark (line : Str) : Prop := ∃ r, Instructs line b! ".dbg" (b! "line" ++ r)

/-- The line is recognized as source information. -/
def SourceInfo (line : Str) : Prop :=
  (∃ i name, FileDirective line i name) ∨ (∃ i n c, LocLine line i n c ∧ i ≠ 0) ∨ (∃ k n, StabDirective line k n) ∨
  DbgMark line ∨ (∃ n, D2Line line n) ∨ ∃ name, D2File line name

/-- The line sets the current source line to `n`; 0 is none. -/
def SetsLine (line : Str) (n : Int) : Prop :=
  (∃ i c, LocLine line i n c ∧ i ≠ 0) ∨ StabDirective line 68 n ∨
  (∃ k m, StabDirective line k m ∧ (k = 100 ∨ k = 132) ∧ n = 0) ∨ (∃ file, DbgDirective line file n) ∨ D2Line line n

/-! ### CUDA -/

/-- The line is a CUDA function header and neither defines nor assigns a label. -/
def StartsCuda (line : Str) : Prop :=
  (∃ kind, CudaHeader line kind) ∧ ∀ l, ¬ DefinesLabel line l ∧ ¬ AssignsLabel line l ∧ ¬ AssignsOnly line l

/-- In CUDA code a line is only a comment if it starts with `#`, `;` or `//` or is `/* … */`. -/
def CudaComment (line : Str) : Prop :=
  ∃ bs t, Blanks bs ∧ line = bs ++ t ∧ (b! "#" <+: t ∨ b! ";" <+: t ∨ b! "//" <+: t ∨ ∃ x, t = b! "/*" ++ x ++ b! "*/")

/-! ### Reading the input -/

/-- Does one of the words stand first in the line except blanks? -/
def startsWithWord (ws : List Str) (line : Str) : Bool :=
  ws.any fun w => w.isPrefixOf (line.dropWhile fun c => c = 32 || c = 9)

/-- A line that text mode looks at. -/
structure Seen where
  /-- the text, cleaned -/
  text : Str
  /-- was there a CUDA function header before it? -/
  code : Bool := false
  /-- is it only a comment that is filtered out, or filtered by `library_functions`?  Only its source information counts then. -/
  skipped : Bool := false
  /-- is it between a CUDA function header and the closing parenthesis? -/
  params : Bool := false
  /-- is it in inline assembly? -/
  inline : Bool := false
deriving Repr, DecidableEq

/-- The line ends a block: it has one of the words for it, or a brace in CUDA code. -/
def Seen.Ends (t : Seen) : Prop := EndsBlock t.text ∨ t.code = true ∧ c! '}' ∈ t.text

/-- How far the input has been read. -/
structure Scan where
  /-- inside a block comment? -/
  inside : Bool := false
  /-- the nesting of inline assembly -/
  nest : Int := 0
  /-- the blanks left over from lines that have nothing else -/
  carry : Str := []
  /-- was there a CUDA function header? -/
  code : Bool := false
  /-- in the parameters of a CUDA function? -/
  params : Bool := false
  /-- is there a current source line? -/
  placed : Bool := false
  /-- the lines seen so far -/
  texts : List Seen := []
  /-- the numbers of lines seen in front of which there was a blank line -/
  gaps : List Nat := []
  /-- the lines shown, as far as the filters `comment_only`, `directives` and `whitespace` decide; blank lines are not yet
  collapsed -/
  shown : List Str := []
deriving Repr, DecidableEq

/-- Programs that tell what a line is. -/
class Recognizers where
  endsBlock : DecidablePred EndsBlock
  sourceInfo : DecidablePred SourceInfo
  setsZero : DecidablePred fun line => SetsLine line 0
  setsLine : DecidablePred fun line => ∃ n, SetsLine line n
  startsCuda : DecidablePred StartsCuda
  onlyComment : DecidablePred OnlyComment
  cudaComment : DecidablePred CudaComment
  plainDirective : DecidablePred PlainDirective

attribute [instance_reducible, instance] Recognizers.endsBlock Recognizers.sourceInfo Recognizers.setsZero Recognizers.setsLine Recognizers.startsCuda Recognizers.onlyComment
  Recognizers.cudaComment Recognizers.plainDirective

instance [Recognizers] (t : Seen) : Decidable t.Ends := inferInstanceAs (Decidable (_ ∨ _))

section
variable [Recognizers]

/-- A line that has something other than blanks and is not in a block comment; `raw` with the blanks carried over, `text` cleaned.
With the filter `directives`, a line that contains `.cfi_startproc` is ignored unless there is a current source line.  Otherwise a
line that ends a block or sets the source line changes whether there is one.

With the filter `library_functions`, no line is shown.  The line is not shown either if the filter `comment_only` is set and it is only a comment (which depends on whether this is CUDA code), or
if the filter `directives` is set and it is a plain directive or has source information but no `.inst`.  Everything is
shown from a CUDA function header to the line with just the closing parenthesis. -/
def Scan.see (f : Filter) (s : Scan) (raw text : Str) : Scan :=
  if f.directives = true ∧ s.placed = false ∧ occurs b! ".cfi_startproc" text then s
  else
    let skipped : Bool :=
      decide (f.libraryFunctions = true ∨ f.commentOnly = true ∧ (if s.code then CudaComment raw else OnlyComment raw))
    let t : Seen := { text, code := s.code, skipped, params := s.params, inline := decide (s.nest > 0) }
    let info : Bool := decide (¬ t.Ends ∧ SourceInfo text)
    let s := { s with
      texts := s.texts ++ [t]
      placed :=
        if t.Ends ∨ SetsLine text 0 then false
        else if ∃ n, SetsLine text n then true else s.placed }
    if skipped then s
    else
      let header : Bool := decide (info = false ∧ StartsCuda text)
      let s := { s with code := s.code || header }
      if s.params || header then
        { s with params := text.filter (fun c => c ≠ 32 ∧ c ≠ 9) ≠ b! ")", shown := s.shown ++ [text] }
      else if f.directives = true ∧ (PlainDirective text ∨ info = true ∧ ¬ occurs b! ".inst" text) then s
      else { s with shown := s.shown ++ [text] }

/-- Read one line.  Block comments are skipped if the filter `comment_only` is set.  A line of blanks is put in front of the next
line.  Every other line is cleaned; inside inline assembly, labels are moved to the left first. -/
def Scan.line (f : Filter) (s : Scan) (l : Str) : Scan :=
  let raw := s.carry ++ l
  if f.commentOnly && (s.inside || opensComment raw) then { s with inside := !occurs b! "*/" raw, carry := [] }
  else if raw.all (fun c => c = 32 || c = 9) then
    { s with carry := raw, gaps := s.gaps ++ [s.texts.length], shown := s.shown ++ [[]] }
  else
    let nest :=
      if startsWithWord [b! "#APP", b! "# Begin ASM"] raw then s.nest + 1
      else if startsWithWord [b! "#NO_APP", b! "# End ASM"] raw then s.nest - 1
      else s.nest
    Scan.see f { s with nest, carry := [] } raw (cleaned f (if nest > 0 then fixLabelIndentation raw else raw))

/-- Read the whole input. -/
def scan (f : Filter) (s : Str) : Scan := (inputLines s).foldl (Scan.line f) {}

/-- The lines that text mode looks at. -/
def seen (f : Filter) (s : Str) : List Seen := (scan f s).texts

/-- There is a blank line directly before the line number `i` of `seen f s`. -/
def BlankBefore (f : Filter) (s : Str) (i : Nat) : Prop := i ∈ (scan f s).gaps

end

/-! ### Sections -/

/-- The name after `.section`: the characters `a-z A-Z 0-9 . -` after blanks and perhaps a double quote. -/
def sectionName (r : Str) : Str :=
  let r := r.dropWhile fun c => c = 32 || c = 9
  (if r.head? = some c! '"' then r.tail else r).takeWhile fun c =>
    (c! 'a' ≤ c && c ≤ c! 'z') || (c! 'A' ≤ c && c ≤ c! 'Z') || (c! '0' ≤ c && c ≤ c! '9') || c == c! '.' || c == c! '-'

/-- The line switches to a section: the first of the words `.data`, `.text` and `.section` in it says to which. -/
def SwitchesTo (line name : Str) : Prop :=
  ∃ a kw r, kw ∈ [b! "data", b! "text", b! "section"] ∧ line = a ++ b! "." ++ kw ++ r ∧
    (∀ a' kw' r', kw' ∈ [b! "data", b! "text", b! "section"] → line = a' ++ b! "." ++ kw' ++ r' → a.length ≤ a'.length) ∧
    name = if kw = b! "section" then sectionName r else kw

/-- The section after the lines `ts`: the one of the last line that switches. -/
def SectionAt (ts : List Seen) (name : Str) : Prop :=
  (name = [] ∧ ∀ t ∈ ts, ∀ n, ¬ SwitchesTo t.text n) ∨
  ∃ a t b, ts = a ++ t :: b ∧ SwitchesTo t.text name ∧ ∀ x ∈ b, ∀ n, ¬ SwitchesTo x.text n

/-! ### Positions -/

/-- A source position. -/
inductive Pos where
  /-- by the index of a file -/
  | indexed (file n column : Int)
  /-- by the name of a file, which may be empty -/
  | named (file : Str) (n : Int)
deriving Repr, DecidableEq

/-- The file name that the last `.file` directive with this index gives.  A directive with one of the words that end a block, even
inside the name, does not count. -/
def FileNamed (ts : List Seen) (i : Int) (name : Str) : Prop :=
  ∃ a t b, ts = a ++ t :: b ∧ ¬ t.Ends ∧ FileDirective t.text i name ∧
    ∀ x ∈ b, ¬ x.Ends → ∀ name', ¬ FileDirective x.text i name'

/-- The file name that the last `.d2file` directive gives. -/
def D2FileNamed (ts : List Seen) (name : Str) : Prop :=
  (name = [] ∧ ∀ t ∈ ts, ¬ t.Ends → ∀ n, ¬ D2File t.text n) ∨
  ∃ a t b, ts = a ++ t :: b ∧ ¬ t.Ends ∧ D2File t.text name ∧ ∀ x ∈ b, ¬ x.Ends → ∀ n, ¬ D2File x.text n

/-- The line `t` after the lines `ts` sets the position. -/
inductive SetsPos (ts : List Seen) (t : Seen) : Option Pos → Prop
  | ends : t.Ends → SetsPos ts t none
  | loc {i n c} : ¬ t.Ends → LocLine t.text i n c → i ≠ 0 → SetsPos ts t (some (.indexed i n c))
  | stab {n} : ¬ t.Ends → StabDirective t.text 68 n → SetsPos ts t (some (.named [] n))
  | stabEnd {k n} : ¬ t.Ends → StabDirective t.text k n → k = 100 ∨ k = 132 → SetsPos ts t none
  | dbg {file n} : ¬ t.Ends → DbgDirective t.text file n → SetsPos ts t (some (.named file n))
  | d2 {file n} : ¬ t.Ends → D2Line t.text n → D2FileNamed ts file → SetsPos ts t (some (.named file n))

/-- The position after the lines `ts`: the last one that was set. -/
inductive PositionAt : List Seen → Option Pos → Prop
  | start : PositionAt [] none
  | set {ts t q} : SetsPos ts t q → PositionAt (ts ++ [t]) q
  | keep {ts t q} : PositionAt ts q → (∀ q', ¬ SetsPos ts t q') → PositionAt (ts ++ [t]) q

/-- What the JSON output says about a position: file name, line and column, or nothing. -/
inductive ShownAs (ts : List Seen) : Option Pos → Option (Str × Int × Int) → Prop
  | nothing : ShownAs ts none none
  | named {file n} : n > 0 → ShownAs ts (some (.named file n)) (some (file, n, 0))
  | zero {file n} : n ≤ 0 → ShownAs ts (some (.named file n)) none
  | file {i n c name} : FileNamed ts i name → n > 0 → ShownAs ts (some (.indexed i n c)) (some (name, n, c))
  | line0 {i n c} : n ≤ 0 → ShownAs ts (some (.indexed i n c)) none
  | undefined {i n c} : (∀ name, ¬ FileNamed ts i name) → ShownAs ts (some (.indexed i n c)) none

/-- The position of the line. -/
def TLine.shownSource (l : TLine) : Option (Str × Int × Int) :=
  if l.source.line > 0 then some (l.source.file.s, l.source.line, l.source.column) else none

/-- A directive that also gives a position to the labels before it. -/
def MovesLabels (t : Str) : Prop := (∃ i n c, LocLine t i n c ∧ i ≠ 0) ∨ ∃ n, D2Line t n

end AsmParser
