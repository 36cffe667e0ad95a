/-
Specification: inputs that differ only in directives.
-/
import Verif.Spec.TextMode

namespace AsmParser

/-- However the line is shown, it is a directive that neither defines a label nor places data (nor has `.inst` in it). -/
def OnlyDirective (f : Filter) (l : Str) : Prop := ∀ t inl, Shown f t inl l → PlainDirective t

/-- The second list is the first without some of these lines.  The first argument: are the lines preceded by a block comment that
has not been closed?  Lines in block comments are not left out. -/
inductive WithoutDirectives (f : Filter) : Bool → List Str → List Str → Prop
  | nil {i : Bool} : WithoutDirectives f i [] []
  | line {i : Bool} {l : Str} {ls ls' : List Str} : WithoutDirectives f ((i || opensComment l) && !occurs b! "*/" l) ls ls' →
      WithoutDirectives f i (l :: ls) (l :: ls')
  | directive {l : Str} {ls ls' : List Str} : OnlyDirective f l → WithoutDirectives f false ls ls' → WithoutDirectives f false (l :: ls) ls'

end AsmParser
