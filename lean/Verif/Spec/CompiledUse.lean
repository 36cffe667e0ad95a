/-
Specification: which of the assembly code that a compiler writes is needed, and what the filter for unused labels leaves of it.
-/
import Verif.Spec.Compiled
import Verif.Spec.Loss

namespace AsmParser

/-! ### Which labels are needed -/

/-- Does the line count as an instruction?  Data in which `.inst` occurs does so too. -/
def CLine.runs : CLine → Bool
  | .instr .. => true
  | x@(.data ..) => occurs b! ".inst" x.text
  | _ => false

def CLine.isData : CLine → Bool
  | .data .. => true
  | _ => false

/-- All labels among the lines are internal, i.e. no function begins there. -/
def NoFunction (xs : List CLine) : Prop := ∀ a note, CLine.label a note ∈ xs → Internal a

/-- Neither a label nor the end of a section or function is among the lines. -/
def Unbroken (xs : List CLine) : Prop := ∀ x ∈ xs, x.isLabel = false ∧ x.isBlock = false

/-- There is a source position after the lines. -/
def Located (xs : List CLine) : Prop := xs.foldl CLine.moves none ≠ none

/-- The lines after `before`, `b:` and `inside` are below the label `b` as far as data is concerned: either directly below it, or in its
function, if there is a source position. -/
def Below (before : List CLine) (b note : Str) (inside : List CLine) : Prop :=
  Unbroken inside ∨ ¬ Internal b ∧ NoFunction inside ∧ Located (before ++ .label b note :: inside)

/-- The labels of the program `xs` that are needed: those that are declared global or weak, those that an instruction outside
functions or in a needed function mentions, and those that data mentions which is below a needed label. -/
inductive Needed (xs : List CLine) : Str → Prop
  | declared {x a} : x ∈ xs → DeclaresSymbol symbolDirectives x.text a → Needed xs a
  | outside {before x after a} : xs = before ++ x :: after → x.runs = true → a ∈ mentioned x.text → NoFunction before → Needed xs a
  | code {before b note inside x after a} : xs = before ++ .label b note :: inside ++ x :: after → x.runs = true → a ∈ mentioned x.text →
      ¬ Internal b → NoFunction inside → Needed xs b → Needed xs a
  | data {before b note inside x after a} : xs = before ++ .label b note :: inside ++ x :: after → x.isData = true → a ∈ mentioned x.text →
      Below before b note inside → Needed xs b → Needed xs a

/-- Does the address stay the same?  An instruction whose arguments begin with `=` does not count. -/
def CLine.quiet : CLine → Bool
  | .label .. | .data .. => false
  | .instr _ _ args => args.head? == some c! '='
  | _ => true

/-- The label `a` is right behind the label `b`: there is neither a label nor an instruction nor data between them. -/
def RightBehind (xs : List CLine) (a b : Str) : Prop :=
  ∃ before note between note' after, xs = before ++ .label b note :: between ++ .label a note' :: after ∧ ∀ x ∈ between, x.quiet = true

/-- Data below the label `b` mentions `a`. -/
def DataMentions (xs : List CLine) (a b : Str) : Prop :=
  ∃ before note inside x after, xs = before ++ .label b note :: inside ++ x :: after ∧ x.isData = true ∧ a ∈ mentioned x.text ∧
    Below before b note inside

/-- An instruction in the function `b` mentions `a`. -/
def CodeMentions (xs : List CLine) (a b : Str) : Prop :=
  ∃ before note inside x after, xs = before ++ .label b note :: inside ++ x :: after ∧ x.runs = true ∧ a ∈ mentioned x.text ∧ ¬ Internal b ∧ NoFunction inside

/-- A line directly below the label `b` declares `a` weak. -/
def WeakBelow (xs : List CLine) (a b : Str) : Prop :=
  ∃ before note inside x after, xs = before ++ .label b note :: inside ++ x :: after ∧ DeclaresWeak x.text a ∧ Unbroken inside

/-- A directive declares `a` global. -/
def Global (xs : List CLine) (a : Str) : Prop :=
  ∃ x ∈ xs, x.isDirective = true ∧ DeclaresSymbol globalDirectives x.text a ∧ occurs b! ".cfi_startproc" x.text = false

/-- There is a chain from the label `a` to a label that mentions it, and so on, up to `b`, through labels that are not declared global.
It has `c` references from code (or weak declarations) and `d` references from data. -/
inductive MentionChain (xs : List CLine) : Str → Nat → Nat → Str → Prop
  | refl {a} : MentionChain xs a 0 0 a
  | code {a b c d e} : ¬ Global xs a → a ∈ labelNames xs → CodeMentions xs a b ∨ WeakBelow xs a b → MentionChain xs b c d e →
      MentionChain xs a (c + 1) d e
  | data {a b c d e} : ¬ Global xs a → DataMentions xs a b → MentionChain xs b c d e → MentionChain xs a c (d + 1) e

/-- There is no circle with as many references from code as from data. -/
def NoCircle (xs : List CLine) : Prop := ∀ a n, ¬ MentionChain xs a (n + 1) (n + 1) a

/-- The labels are found in use for a reason: they are needed, or right behind a needed label, or mentioned by data whose label is
right behind a needed label. -/
structure Found.Reasons (xs : List CLine) (x : Found) : Prop where
  used : ∀ a ∈ x.used, Needed xs a
  aliases : ∀ a ∈ x.aliases, ∃ b, RightBehind xs a b ∧ Needed xs b
  dataAliases : ∀ a ∈ x.dataAliases, ∃ r b, DataMentions xs a r ∧ RightBehind xs r b ∧ Needed xs b

/-! ### What is left -/

def internalName : Str → Bool
  | c :: _ => c == c! '.' || c == c! '$' || c == c! 'L'
  | [] => false

def Found.isUsed (x : Found) (a : Str) : Bool := x.used.contains a
def Found.isAlias (x : Found) (a : Str) : Bool := x.aliases.contains a
def Found.isDataAlias (x : Found) (a : Str) : Bool := x.dataAliases.contains a

/-- The place in the program: is there a source position, is the last label (if any) without use, and are lines removed? -/
structure Spot where
  placed : Bool := false
  idle : Bool := true
  removing : Bool := false

/-- The place after one more line.  A label that is not found in use in any way starts the removal (with the filter for unused
labels), unless it is internal, and a label in use ends it. -/
def Spot.after (unused : Bool) (x : Found) (s : Spot) : CLine → Spot
  | .label a _ => { s with
      idle := !x.isUsed a && !x.isAlias a && !x.isDataAlias a
      removing := unused && !x.isUsed a && (s.removing || (!x.isAlias a && !x.isDataAlias a && !internalName a)) }
  | .loc .. => { s with placed := true }
  | .block .. => { s with placed := false }
  | _ => s

/-- Is the line kept, if `s` is the place behind it?  In the compatibility mode, data without position below an idle label is not. -/
def Spot.keeps (unused compat : Bool) (x : Found) (s : Spot) : CLine → Bool
  | .label a _ => !unused || x.isUsed a || (!s.removing && !x.isAlias a && x.isDataAlias a)
  | .instr .. => !s.removing
  | .data .. => !s.removing && !(compat && s.idle && !s.placed)
  | _ => false

/-- What is left of the lines after the place `s`. -/
def leftOf (unused compat : Bool) (x : Found) : Spot → List CLine → List CLine
  | _, [] => []
  | s, l :: ls =>
    let s := s.after unused x l
    (if s.keeps unused compat x l then [l] else []) ++ leftOf unused compat x s ls

/-- Directives and comments are filtered, perhaps unused labels, and nothing else. -/
structure CompiledFilter (f : Filter) : Prop where
  directives : f.directives = true
  comments : f.commentOnly = true
  library : f.libraryFunctions = false
  whitespace : f.whitespace = false

end AsmParser
