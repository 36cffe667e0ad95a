/-
Reading several inputs with the same text-mode parser.
-/
import Verif.Spec.TextMode

namespace AsmParser

/-- `p` is the state of a text-mode parser after reading the pieces, with one call of `fromStream` for each.  Iteration orders and
what earlier parses have left behind on the thread are arbitrary, and may differ between the calls. -/
inductive TextResults (L : Locale) (f : Filter) : List Str → TParser → Prop
  | start : TextResults L f [] (TParser.init f)
  | call {ss : List Str} {p : TParser} {s : Str} {p' : TParser} (o : Order) (n : Nat) (v v' : List Str) (h : TextResults L f ss p)
      (h' : p.fromStream L o n s v = some (p', v')) : TextResults L f (ss ++ [s]) p'

end AsmParser
