/-
Specification: what binary mode outputs for a listing of any size and with any filter.  The output grows function by
function; a function may be taken back when the next one begins, and the output ends with a marker when it is full.
-/
import Verif.Spec.Listing
import Verif.Spec.Objdump

namespace AsmParser

/-- The output so far. -/
structure Pages where
  /-- the functions that are complete -/
  done : List AsmLine := []
  /-- the current function: a label line and what follows it (before the first function: any lines) -/
  cur : List AsmLine := []
  /-- nothing is added any more -/
  full : Bool := false
  /-- an entry of the label table without a line -/
  extra : List (Str × Nat) := []

def Pages.lines (b : Pages) : List AsmLine := b.done ++ b.cur

/-- Does the list begin with a label line? -/
def startsFunction (ls : List AsmLine) : Bool := (ls.head?.map (·.isLabel)).getD false
/-- Is some line attributed to user code? -/
def hasUserLine (ls : List AsmLine) : Bool := ls.any (·.source.isUsercode)

/-- A function header follows: with the filter, a function without user code is taken back. -/
def Pages.close (lib : Bool) (b : Pages) : Pages :=
  if lib && startsFunction b.cur && !hasUserLine b.cur then { b with cur := [] }
  else { b with done := b.done ++ b.cur, cur := [] }

/-- One more line; the 5001st is the marker. -/
def Pages.add (b : Pages) (l : AsmLine) : Pages :=
  if b.lines.length < 5000 then { b with cur := b.cur ++ [l] }
  else { b with cur := b.cur ++ [markerLine], full := true,
                extra := if l.isLabel then [(l.label, 5001)] else [] }

/-- The output after one more line of the listing, which emits at most one line. -/
noncomputable def Pages.step (lib plt : Bool) (c : Ctx) (b : Pages) (i : Item) : Pages :=
  if b.full then b
  else
    let b := if i.isHeader then b.close lib else b
    match c.out plt i with
    | [] => b
    | l :: _ => b.add l

/-- The output for the lines of a listing. -/
noncomputable def pages (lib plt : Bool) : Ctx → Pages → List Item → Pages
  | _, b, [] => b
  | c, b, i :: is => pages lib plt (c.after plt i) (b.step lib plt c i) is

/-! The same for a listing that fits: the list of its functions. -/

/-- The lines before the first label line. -/
def preamble (ls : List AsmLine) : List AsmLine := ls.takeWhile (fun l => !l.isLabel)

/-- The functions: each begins with a label line. -/
def functionsOf : List AsmLine → List (List AsmLine)
  | [] => []
  | l :: ls =>
    if l.isLabel then (l :: preamble ls) :: functionsOf ls else functionsOf ls

/-- The functions that stay: all with user code, and the last one unless a function that is left out follows it. -/
def keptFunctions (followed : Bool) (fs : List (List AsmLine)) : List (List AsmLine) :=
  if followed then fs.filter hasUserLine else fs.dropLast.filter hasUserLine ++ fs.getLast?.toList

end AsmParser
