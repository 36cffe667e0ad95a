/-
Specification: how binary mode reads any line of its input, and the output for any input.
-/
import Verif.Spec.Pages
import Verif.Spec.Utf8

namespace AsmParser

def dropBlanks (s : Str) : Str := s.dropWhile isWhitespace

/-! ### The parts of a line -/

/-- A line without its margin of blanks and semicolons. -/
def withoutMargin (line : Str) : Str := line.dropWhile fun c => isWhitespace c || c == c! ';'
/-- The characters of the first word (semicolons among them do not count): it ends at a blank, `:` or `/`. -/
def inLeadWord (c : Byte) : Bool := !isWhitespace c && c != c! ':' && c != c! '/'
/-- The first word of a line. -/
def leadWord (line : Str) : Str := ((withoutMargin line).takeWhile inLeadWord).filter (· != c! ';')
/-- The line from the character on that ends the first word. -/
def afterWord (line : Str) : Str := (withoutMargin line).dropWhile inLeadWord

/-- What a line is taken for. -/
inductive LineKind where
  /-- a remark that is not shown -/
  | remark
  /-- `Disassembly of section NAME:` -/
  | section (name : Str)
  /-- any other line that begins with `Disassembly` -/
  | noSection (text : Str)
  /-- `/FILE:NUMBER`, possibly with a blank and more behind the number (`ended`) -/
  | source (file number : Str) (ended : Bool)
  /-- `ADDRESS TITLE` -/
  | header (addr title : Str)
  /-- anything else: its address, its bytes, and its text `front ++ rest`; in `rest` references are recognized -/
  | code (addr : Option Str) (bytes : List Str) (front rest : Str)
deriving DecidableEq

/-- The words of a text, separated by spaces. -/
def spaceWords (t : Str) : List Str :=
  (t.foldr (fun c ws => if c = c! ' ' then [] :: ws else match ws with | [] => [[c]] | w :: ws => (c :: w) :: ws) [[]]).filter
    (· ≠ [])

/-- What follows the colon of an address: `t` are the characters read so far.  Two blanks, the first a space, end the bytes; `R`
starts a relocation, any other character than a hexadecimal digit the text. -/
def readBytes (t : Str) : Str → List Str × Str × Str
  | [] => ([], t, [])
  | c :: r =>
    if isWhitespace c then
      if t = [] then readBytes [] r
      else if t.getLast? = some c! ' ' then (spaceWords t, [], r)
      else readBytes (t ++ [c]) r
    else if c = c! 'R' then ([], t ++ b! "   R" ++ r.map fun c => if c = 9 then 32 else c, [])
    else if isHex c then readBytes (t ++ [c]) r
    else ([], t ++ [c], r)

/-- What follows the colon behind a file name: `n` are the characters read so far. -/
def readLineNo (file n : Str) : Str → LineKind
  | [] => .source file n false
  | c :: r =>
    if c = c! ':' then readLineNo n [] r
    else if isWhitespace c then .source file n true
    else readLineNo file (n ++ [c]) r

/-- A line that begins with a file name. -/
def sourceLine (t : Str) : LineKind :=
  match t.dropWhile (· ≠ c! ':') with
  | [] => .code none [] t []
  | _ :: r => readLineNo (t.takeWhile (· ≠ c! ':')) [] r

/-- A line that begins with `Disassembly`. -/
def sectionLine (t : Str) : LineKind :=
  match (b! "Disassembly of section ").isPrefixOf t, t.drop 23 with
  | true, c :: r => .section (c :: r.takeWhile (· ≠ c! ':'))
  | _, _ => .noSection t

/-- The kind of a line; `ign` says whether the current function is left out. -/
def lineKind (ign : Bool) (line : Str) : LineKind :=
  let w := leadWord line
  let number := ign || w.all isHex
  match afterWord line with
  | [] => .code none [] w []
  | d :: r =>
    if d = c! '/' then sourceLine (w ++ d :: r)
    else if d = c! ':' then
      if w = [] then .code none [] [] r
      else if number then .code (some w) (readBytes [] r).1 (readBytes [] r).2.1 (readBytes [] r).2.2
      else .remark
    else if w = b! "Disassembly" then sectionLine (w ++ d :: r)
    else if number then .header w (dropBlanks r)
    else .remark

/-! ### What a line does -/

/-- How numbers and columns are computed. -/
structure Reading where
  address : Str → Int
  number : Str → Int
  /-- number of characters -/
  chars : Str → Nat

/-- Addresses below 2^32 and line numbers below 2^31 are read correctly, except that addresses from 2^31 on come out negative;
what happens to larger ones is undefined.  A character counts as one column. -/
structure Reading.Ok (L : Locale) (R : Reading) : Prop where
  low : ∀ w, (∀ c ∈ w, isHex c = true) → hexVal w < 2 ^ 31 → R.address w = hexVal w
  high : ∀ w, (∀ c ∈ w, isHex c = true) → 2 ^ 31 ≤ hexVal w → hexVal w < 2 ^ 32 → R.address w = (hexVal w : Int) - 2 ^ 32
  digits : ∀ d r, d ≠ [] → (∀ c ∈ d, isDigit c = true) → (∀ c, r.head? = some c → isDigit c = false) → decVal d < 2 ^ 31 →
    R.number (d ++ r) = decVal d
  other : ∀ n, (∀ c, n.head? = some c → isDigit c = false ∧ isSpace c = false ∧ c ≠ c! '+' ∧ c ≠ c! '-') → R.number n = 0
  space : ∀ c n, isSpace c = true → R.number (c :: n) = R.number n
  plus : ∀ d r, (∀ c ∈ d, isDigit c = true) → (∀ c, r.head? = some c → isDigit c = false) → decVal d < 2 ^ 31 →
    R.number (c! '+' :: (d ++ r)) = decVal d
  minus : ∀ d r, (∀ c ∈ d, isDigit c = true) → (∀ c, r.head? = some c → isDigit c = false) → decVal d < 2 ^ 31 →
    R.number (c! '-' :: (d ++ r)) = 0
  ascii : L.Ascii → ∀ w, asciiStr w → R.chars w = w.length
  utf8 : L = Locale.utf8 → ∀ ns : List Nat, (∀ n ∈ ns, n ≠ 0 ∧ Scalar n) →
    R.chars (ns.flatMap utf8Encode) = ns.length

/-- The text of a line. -/
def codeText (front rest : Str) : Str := if front = [] then dropBlanks rest else front ++ rest

/-- The references in `r`, the text before it being `t`, and where the name of the reference starts that has not been closed, at the
beginning and at the end.  Behind a `#` there are none. -/
def readRefs (R : Reading) (drop : Str → Bool) : Option Nat → Str → Str → List AsmLabel × Option Nat
  | op, _, [] => ([], op)
  | op, t, c :: r =>
    let t' := if t = [] && isWhitespace c then [] else t ++ [c]
    if c = c! '#' then ([], op)
    else if c = c! '<' then readRefs R drop (some ((R.chars t + 1) % 65536)) t' r
    else match op with
      | some k =>
        if c = c! '>' ∨ c = c! '+' then
          let more := readRefs R drop none t' r
          ((if t.length < k || drop (t.drop k) then [] else [⟨t.drop k, k, R.chars t % 65536⟩]) ++ more.1, more.2)
        else readRefs R drop op t' r
      | none => readRefs R drop op t' r

/-- The columns in the line that is shown, which has a blank in front, counted from 1. -/
def shownRef (r : AsmLabel) : AsmLabel := { r with startCol := (r.startCol + 2) % 65536, endCol := (r.endCol + 2) % 65536 }

/-- The name in the title of a function. -/
def titleName (t : Str) : Str :=
  match t with
  | c :: r => if c = c! '<' ∧ b! ">:" <:+ r then r.take (r.length - 2) else t
  | [] => []

/-- What the lines read so far leave behind. -/
structure Carry where
  sect : Str := []
  source : AsmSource := {}
  /-- the current function is left out -/
  ign : Bool := false
  /-- a reference that has not been closed -/
  opened : Option Nat := none

def Carry.next (R : Reading) (drop : Str → Bool) (c : Carry) : LineKind → Carry
  | .remark => c
  | .section name => { c with sect := name }
  | .noSection _ => { c with sect := [] }
  | .source file n ended =>
    { c with source := { file, line := if c.ign && !ended then 0 else R.number n, isUsercode := !inLibrary file } }
  | .header _ title => if title = [] then c else { c with ign := drop (titleName title) }
  | .code _ _ front rest => { c with opened := (readRefs R drop c.opened front rest).2 }

def Carry.shown (R : Reading) (drop : Str → Bool) (c : Carry) : LineKind → Option AsmLine
  | .remark | .section _ | .source .. => none
  | .noSection t => if c.ign then none else some { text := c! ' ' :: t, source := c.source }
  | .header a title =>
    if title = [] || drop (titleName title) then none
    else some { text := titleName title ++ b! ":", label := titleName title, isLabel := true, sect := c.sect, source := c.source,
                address := if c.ign then none else some (R.address a) }
  | .code a bytes front rest =>
    if c.ign || (codeText front rest).isEmpty then none
    else some { text := c! ' ' :: codeText front rest, sect := c.sect, source := c.source, address := a.map R.address,
                opcodes := bytes, labels := (readRefs R drop c.opened front rest).1.map shownRef }

/-- Does a function begin? -/
def LineKind.begins : LineKind → Bool
  | .header _ title => title ≠ []
  | _ => false

/-- The output after one more line. -/
def Pages.next (lib : Bool) (b : Pages) (begins : Bool) (l : Option AsmLine) : Pages :=
  if b.full then b
  else
    let b := if begins then b.close lib else b
    match l with
    | none => b
    | some l => b.add l

/-- The output for the lines `ls`. -/
def decodeLines (R : Reading) (drop : Str → Bool) (lib : Bool) : Carry → Pages → List Str → Pages
  | _, b, [] => b
  | c, b, l :: ls =>
    let k := lineKind c.ign (l.filter (· != 13))
    decodeLines R drop lib (c.next R drop k) (b.next lib k.begins (c.shown R drop k)) ls

end AsmParser
