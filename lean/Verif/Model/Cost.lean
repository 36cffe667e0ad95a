/-
The functions of `Verif/Model/AsmText.lean` that decide which labels are used, with a counter: each also returns how many times
`isUsed` (src/assembly/parser.cpp:599-656) has been called.  Without the counter they are the functions of the model
(`isUsedC_forget` and so on, `Verif/Proofs/Cost.lean`).
-/
import Verif.Model.AsmText

namespace AsmParser

/-- An answer with the labels seen, and the number of calls. -/
abbrev Answer := Bool × List Str × Nat

/-- `n` more calls. -/
def Answer.add (n : Nat) (x : Answer) : Answer := (x.1, x.2.1, n + x.2.2)

/-- `anyRef`: `for (ref : refs) if (q(ref)) return true;`. -/
def anyRefC (q : Str → List Str → Option Answer) : List Str → List Str → Option Answer
  | [], vis => some (false, vis, 0)
  | r :: rs, vis =>
    match q r vis with
    | none => none
    | some (true, vis, n) => some (true, vis, n)
    | some (false, vis, n) => (anyRefC q rs vis).map (Answer.add n)

/-- `isUsed`, src/assembly/parser.cpp:599-656. -/
def isUsedC (g : Usage) (o : Order) : Nat → Str → Nat → List Str → Option Answer
  | 0, _, _, _ => none
  | fuel + 1, label, depth, vis =>
    let vis := if depth = 0 then [] else vis
    if vis.contains label then some (false, vis, 1)
    else
      let vis := label :: vis
      if g.usercode.contains label then some (true, vis, 1)
      else
        match anyRefC (fun ref vis => if ref.isEmpty then some (true, vis, 0)
            else isUsedC g o fuel ref (depth + 1) vis) (o.run (.used label) (refsOf g.used label)) vis with
        | none => none
        | some (true, vis, n) => some (true, vis, n + 1)
        | some (false, vis, n) =>
          if depth > 0 then
            match anyRefC (fun ref vis => isUsedC g o fuel ref (depth - 1) vis)
                (o.run (.weak label) (refsOf g.weaklyUsed label)) vis with
            | none => none
            | some (true, vis, m) => some (true, vis, n + m + 1)
            | some (false, vis, m) =>
              match anyRefC (fun ref vis => isUsedC g o fuel ref (depth - 1) vis)
                  (o.run (.data label) (refsOf g.dataUsed label)) vis with
              | none => none
              | some (true, vis, k) => some (true, vis, n + m + k + 1)
              | some (false, vis, k) => some (false, vis.filter (· != label), n + m + k + 1)
          else some (false, vis.filter (· != label), n + 1)

/-- `isUsedThroughAlias`, src/assembly/parser.cpp:588-597. -/
def isUsedThroughAliasC (g : Usage) (o : Order) (fuel : Nat) (label : Str) (vis : List Str) : Option Answer :=
  match g.aliased.lookup label with
  | some a => isUsedC g o fuel a 1 vis
  | none => some (false, vis, 0)

/-- `isDataUsedThroughAlias`, src/assembly/parser.cpp:658-672. -/
def isDataUsedThroughAliasC (g : Usage) (o : Order) (fuel : Nat) (label : Str) (vis : List Str) : Option Answer :=
  anyRefC (isUsedThroughAliasC g o fuel) (o.run (.data label) (refsOf g.dataUsed label)) vis

/-- `markLine`, src/assembly/parser.cpp:694-705. -/
def markLineC (g : Usage) (o : Order) (fuel : Nat) (line : TLine) (vis : List Str) : Option (TLine × List Str × Nat) :=
  match isUsedC g o fuel line.label 1 vis with
  | none => none
  | some (true, vis, n) => some ({ line with isUsed := true }, vis, n)
  | some (false, vis, n) =>
    match isDataUsedThroughAliasC g o fuel line.label vis with
    | none => none
    | some (true, vis, m) => some ({ line with isUsedDataThroughAlias := true }, vis, n + m)
    | some (false, vis, m) =>
      match isUsedThroughAliasC g o fuel line.label vis with
      | none => none
      | some (true, vis, k) => some ({ line with isUsedThroughAlias := true }, vis, n + m + k)
      | some (false, vis, k) => some (line, vis, n + m + k)

/-- `markLoop`, src/assembly/parser.cpp:689-707. -/
def TParser.markLoopC (o : Order) (fuel : Nat) : List Str → TParser → List Str → Option (TParser × List Str × Nat)
  | [], p, vis => some (p, vis, 0)
  | l :: ls, p, vis =>
    let idx := (p.labelsDefined.lookup l).getD 0 - 1
    match p.lines[idx]? with
    | none => TParser.markLoopC o fuel ls { p with ub := true } vis
    | some line =>
      match markLineC p.usage o fuel line vis with
      | none => none
      | some (line', vis, n) =>
        (TParser.markLoopC o fuel ls { p with lines := p.lines.set idx line' } vis).map fun x => (x.1, x.2.1, n + x.2.2)

/-- `fromStream`, src/assembly/parser.cpp:807-838, with the number of calls of `isUsed`. -/
def TParser.fromStreamC (L : Locale) (o : Order) (fuel : Nat) (p : TParser) (input : Str) (vis : List Str) :
    Option (TParser × List Str × Nat) :=
  let p := (p.readStream L input).filterNonLabels
  match p.markLoopC o fuel (o.run .labels (p.labelsDefined.map (·.1))) vis with
  | none => none
  | some (p, vis, n) => some (p.removeUnused, vis, n)

end AsmParser
