/-
Bytes and byte strings.

A C++ `char` / `std::string` / `std::string_view` is modelled as `UInt8` / `List UInt8`
(the *contents*; lifetimes of views are modelled separately, see `Verif.Model.AsmText`).
On the platforms the project targets `char` is signed; every comparison the code makes on a
`char` is against ASCII constants, for which signedness is irrelevant.
-/
import Lean.Elab.Term

/-- A C++ `char`. -/
abbrev Byte := UInt8
/-- The contents of a C++ `std::string` / `std::string_view`. -/
abbrev Str := List UInt8

/-- `b! "abc"` is the byte list of the UTF-8 encoding of a string literal (expanded at parse time). -/
syntax:max (name := bytesLit) "b!" str : term
/-- `c! 'a'` is the byte of an ASCII character literal (expanded at parse time). -/
syntax:max (name := byteLit) "c!" char : term

macro_rules
  | `(b! $s:str) => do
    let lits := s.getString.toUTF8.toList.map fun b => Lean.Syntax.mkNumLit (toString b.toNat)
    let rec go : List (Lean.TSyntax `num) → Lean.MacroM (Lean.TSyntax `term)
      | [] => `(([] : List UInt8))
      | [x] => `(([($x : UInt8)] : List UInt8))
      | x :: xs => do
        let t ← go xs
        `((($x : UInt8) :: $t))
    go lits
  | `(c! $c:char) => `(($(Lean.Syntax.mkNumLit (toString c.getChar.toNat)) : UInt8))

namespace AsmParser

/-! ### Character predicates of `src/utils/utils.hpp` and `src/utils/utils.cpp` -/

/-- `AsmParser::is_whitespace`, src/utils/utils.hpp:9-12. -/
def isWhitespace (c : Byte) : Bool := c == 32 || c == 9

/-- `AsmParser::is_hex`, src/utils/utils.cpp:4-7 (lower case only). -/
def isHex (c : Byte) : Bool := (97 ≤ c && c ≤ 102) || (48 ≤ c && c ≤ 57)

/-- `AsmParser::hex2int`, src/utils/utils.cpp:9-19.  The C++ result is an `int8_t`; the function is
only ever called on characters for which `is_hex` holds, where the value is 0..15, so the result is
modelled as a natural number. -/
def hex2int (c : Byte) : Nat :=
  if 48 ≤ c && c ≤ 57 then c.toNat - 48 else 10 + c.toNat - 97

/-! ### ASCII classes used by the regular expressions (`\h \w \d \s`, src/utils/regexes.hpp) -/

/-- CTRE `\h` on a (signed, 8-bit) `char`: space or tab.  The non-ASCII members of PCRE's `\h` are
code points ≥ 0xA0, which a signed `char` never equals. -/
def isH (c : Byte) : Bool := c == 32 || c == 9
/-- `\d` -/
def isDigit (c : Byte) : Bool := 48 ≤ c && c ≤ 57
/-- `[a-z]` -/
def isLower (c : Byte) : Bool := 97 ≤ c && c ≤ 122
/-- `[A-Z]` -/
def isUpper (c : Byte) : Bool := 65 ≤ c && c ≤ 90
/-- `[A-Za-z]` -/
def isAlpha (c : Byte) : Bool := isLower c || isUpper c
/-- `\w` = `[A-Za-z0-9_]` -/
def isWord (c : Byte) : Bool := isAlpha c || isDigit c || c == c! '_'
/-- `\s` and C `isspace` in the "C"/UTF-8 locales: space, `\t \n \v \f \r`. -/
def isSpace (c : Byte) : Bool := c == 32 || (9 ≤ c && c ≤ 13)

/-! ### `std::string_view` helpers -/

/-- `std::string_view::starts_with`. -/
def startsWith (s p : Str) : Bool := p.isPrefixOf s
/-- `std::string_view::ends_with`. -/
def endsWith (s p : Str) : Bool := p.isSuffixOf s

/-- `std::string_view::find(needle, from)`: index of the first occurrence at or after `from`,
`none` for `npos`.  (`findAux` scans suffixes; `i` is the index of the head.) -/
def findAux (needle : Str) : Nat → Str → Option Nat
  | i, [] => if needle.isEmpty then some i else none
  | i, c :: cs => if needle.isPrefixOf (c :: cs) then some i else findAux needle (i + 1) cs

def find (s needle : Str) (frm : Nat) : Option Nat :=
  if s.length < frm then none else findAux needle frm (s.drop frm)

/-- `2^31 - 1`, the largest `int`/`int32_t`. -/
def intMax : Nat := 2147483647

/-- Value of a string of decimal digits. -/
def decVal (s : Str) : Nat := s.foldl (fun n c => n * 10 + (c.toNat - 48)) 0

end AsmParser
