/-
Specification for C95: lines without a meaning.
-/
import Verif.Spec.Remarks
import Verif.Spec.Usage

namespace AsmParser

/-- However the line is shown, it is a directive that neither defines a label nor places data, gives no source position, ends no
block, begins no procedure, declares no symbol and has no brace. -/
def MuteDirective (f : Filter) (l : Str) : Prop :=
  ∀ t inl, Shown f t inl l → PlainDirective t ∧ ¬ SourceInfo t ∧ ¬ EndsBlock t ∧ ¬ Contains t b! ".cfi_startproc" ∧
    (∀ a, ¬ DeclaresSymbol symbolDirectives t a) ∧ c! '}' ∉ t

/-- The lines of one block comment: the first one opens it, and only the last one has `*/`. -/
def CommentBlock (c : List Str) : Prop :=
  ∃ ls l, c = ls ++ [l] ∧ (∃ a, c.head? = some a ∧ opensComment a = true) ∧ (∀ x ∈ ls, occurs b! "*/" x = false) ∧ occurs b! "*/" l = true

/-- The second list is the first without some lines that are only comments and some block comments, if the filter `comment_only` is
set, and without some directives of this kind, if the filter `directives` is set.  The first argument: are the lines preceded by a
block comment that has not been closed? -/
inductive Quieter (f : Filter) : Bool → List Str → List Str → Prop
  | nil {i : Bool} : Quieter f i [] []
  | line {i : Bool} {l : Str} {ls ls' : List Str} : Quieter f ((i || opensComment l) && !occurs b! "*/" l) ls ls' → Quieter f i (l :: ls) (l :: ls')
  | remark {l : Str} {ls ls' : List Str} : f.commentOnly = true → Remark l → Quieter f false ls ls' → Quieter f false (l :: ls) ls'
  | block {c ls ls' : List Str} : f.commentOnly = true → CommentBlock c → Quieter f false ls ls' → Quieter f false (c ++ ls) ls'
  | directive {l : Str} {ls ls' : List Str} : f.directives = true → MuteDirective f l → Quieter f false ls ls' → Quieter f false (l :: ls) ls'

/-- The document without the number of lines read. -/
def JsonDoc.uncounted (d : JsonDoc) : JsonDoc := { d with originalLineCount := 0 }

end AsmParser
