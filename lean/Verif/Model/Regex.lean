/-
A model of the part of CTRE (compile-time regular expressions, ctre/3.7.1) that the project uses:
Perl-style backtracking matching with ordered alternatives, greedy and lazy repetition, capture
groups and the anchors `^` and `$` in single-line mode.

The engine is modelled by *lists of successes in priority order*: `Re.run r st` lists every way of
matching `r` from the position `st`, in the order a backtracking engine tries them.  The engine's
answer is the first element that lets the rest of the pattern succeed.  That CTRE implements these
semantics is part of the trusted base (DESIGN.md).
-/
import Verif.Model.Basic

namespace AsmParser

/-- Capture groups: group number and captured text, most recent first. -/
abbrev Caps := List (Nat × Str)

/-- A position in the subject during matching. -/
structure MSt where
  /-- number of bytes of the subject before the current position (for `^`) -/
  pos : Nat
  /-- the rest of the subject -/
  rest : Str
  caps : Caps
deriving Repr, DecidableEq

/-- Regular expressions. -/
inductive Re where
  | eps
  /-- one byte satisfying the predicate -/
  | cls (p : Byte → Bool)
  | seq (a b : Re)
  /-- ordered alternative `a|b` -/
  | alt (a b : Re)
  /-- `a*` (greedy) or `a*?` (lazy) -/
  | star (greedy : Bool) (a : Re)
  /-- the capture group with the given number -/
  | grp (n : Nat) (a : Re)
  /-- `^` (single-line mode: only at the beginning of the subject) -/
  | bol
  /-- `$` (single-line mode: only at the end of the subject) -/
  | eol

/-- Iterate the one-step function `f`, in priority order.  An iteration must consume at least one
byte (every repeated sub-pattern in src/utils/regexes.hpp does), so `fuel` = remaining length is
enough. -/
def starRun (greedy : Bool) (f : MSt → List MSt) : Nat → MSt → List MSt
  | 0, st => [st]
  | n + 1, st =>
    let more := ((f st).filter fun st' => st'.rest.length < st.rest.length).flatMap (starRun greedy f n)
    if greedy then more ++ [st] else st :: more

/-- All matches of `r` starting at `st`, in backtracking order. -/
def Re.run : Re → MSt → List MSt
  | .eps, st => [st]
  | .cls p, st =>
    match st.rest with
    | [] => []
    | c :: cs => if p c then [{ st with pos := st.pos + 1, rest := cs }] else []
  | .seq a b, st => (a.run st).flatMap fun st' => b.run st'
  | .alt a b, st => a.run st ++ b.run st
  | .star g a, st => starRun g (fun st => a.run st) st.rest.length st
  | .grp n a, st =>
    (a.run st).map fun st' =>
      { st' with caps := (n, st.rest.take (st.rest.length - st'.rest.length)) :: st'.caps }
  | .bol, st => if st.pos = 0 then [st] else []
  | .eol, st => if st.rest.isEmpty then [st] else []

/-- The result of a successful match. -/
structure Match where
  /-- start of the match in the subject -/
  start : Nat
  /-- one past the end of the match -/
  stop : Nat
  caps : Caps
deriving Repr, DecidableEq

/-- `match.get<n>().to_view()`: an unset group is an empty view. -/
def Match.get (m : Match) (n : Nat) : Str := (m.caps.lookup n).getD []

/-- `match.get<n>().to_number()`: `std::from_chars` into an `int`; on overflow the result stays 0. -/
def toNumber (s : Str) : Int := if decVal s ≤ intMax then decVal s else 0

/-- `ctre::match<r>(s)`: the whole subject must match. -/
def Re.fullMatch (r : Re) (s : Str) : Option Match :=
  ((r.run ⟨0, s, []⟩).find? fun st => st.rest.isEmpty).map fun st => ⟨0, st.pos, st.caps⟩

/-- Try to match at each position from `pos` on. -/
def Re.searchFrom (r : Re) : Nat → Str → Option Match
  | pos, s =>
    match r.run ⟨pos, s, []⟩ with
    | st :: _ => some ⟨pos, st.pos, st.caps⟩
    | [] =>
      match s with
      | [] => none
      | _ :: cs => r.searchFrom (pos + 1) cs

/-- `ctre::search<r>(s)`: leftmost match. -/
def Re.search (r : Re) (s : Str) : Option Match := r.searchFrom 0 s

/-- `ctre::range<r>(s)`: successive non-overlapping leftmost matches.  `fuel` bounds the number of
matches (the only pattern used this way never matches the empty string, so the length is enough). -/
def Re.rangeAux (r : Re) (s : Str) : Nat → Nat → List Match
  | 0, _ => []
  | fuel + 1, pos =>
    match r.searchFrom pos (s.drop pos) with
    | none => []
    | some m => m :: r.rangeAux s fuel m.stop

def Re.range (r : Re) (s : Str) : List Match := r.rangeAux s (s.length + 1) 0

/-! ### Notation -/
namespace Re
def chr (c : Byte) : Re := .cls (· == c)
/-- a literal string -/
def lit : Str → Re
  | [] => .eps
  | [c] => chr c
  | c :: cs => .seq (chr c) (lit cs)
/-- `a+` -/
def plus (a : Re) : Re := .seq a (.star true a)
/-- `a*` -/
def many (a : Re) : Re := .star true a
/-- `a?` -/
def opt (a : Re) : Re := .alt a .eps
/-- `.` : any byte (the parsers never pass a newline) -/
def any : Re := .cls fun _ => true
/-- `\h*` -/
def hs : Re := many (.cls isH)
/-- `\h+` -/
def hs1 : Re := plus (.cls isH)
/-- `\d+` -/
def digits : Re := plus (.cls isDigit)
/-- ordered alternative of a list of literals -/
def oneOf : List Str → Re
  | [] => .cls fun _ => false
  | [s] => lit s
  | s :: ss => .alt (lit s) (oneOf ss)
instance : HAppend Re Re Re := ⟨.seq⟩
end Re

end AsmParser
