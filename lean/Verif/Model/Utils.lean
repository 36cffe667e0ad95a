/-
src/utils/utils.cpp (`ustrlen`), src/utils/library_detection.cpp and the C library's `atoi`.
-/
import Verif.Model.Types

namespace AsmParser

/-- The part of the C locale the code depends on: `mblen(p, n)` for the `n` bytes of the argument.
(A C function whose result depends on the locale that `main` installs, src/main.cpp:72-82.) -/
structure Locale where
  mblen : Str → Int

/-- Loop of `ustrlen`, src/utils/utils.cpp:27-47.  `fuel` = number of remaining bytes; `mblen`
results ≥ 1 make the string shorter, so it is never exhausted early. -/
def ustrlenAux (L : Locale) : Nat → Str → Nat
  | 0, _ => 0
  | fuel + 1, s =>
    if s.isEmpty then 0
    else
      let k := L.mblen s
      if k < 1 then 0
      else 1 + (if s.length > k.toNat then ustrlenAux L fuel (s.drop k.toNat) else 0)

/-- `AsmParser::ustrlen`, src/utils/utils.cpp:21-50: number of multibyte characters, stopping at the
first NUL or invalid sequence. -/
def ustrlen (L : Locale) (s : Str) : Nat := ustrlenAux L s.length s

/-- Length of the UTF-8 sequence a lead byte announces (RFC 3629), 0 if it is not a lead byte. -/
def utf8Len (c : Byte) : Nat :=
  if c < 128 then 1
  else if 194 ≤ c && c ≤ 223 then 2
  else if 224 ≤ c && c ≤ 239 then 3
  else if 240 ≤ c && c ≤ 244 then 4
  else 0

def isCont (c : Byte) : Bool := 128 ≤ c && c ≤ 191

/-- `mblen` in a UTF-8 locale such as the `en_US.UTF-8` that src/main.cpp:75 installs: 0 for NUL, the
sequence length for a complete sequence, -1 otherwise.  (Second-byte restrictions for overlong
forms and surrogates as in RFC 3629.) -/
def utf8Mblen : Str → Int
  | [] => 0
  | c :: cs =>
    if c == 0 then 0
    else if utf8Len c == 0 then -1
    else
      let k := utf8Len c
      let tl := cs.take (k - 1)
      if tl.length == k - 1 && tl.all isCont
          && !(c == 224 && tl.headD 0 < 160) && !(c == 237 && 160 ≤ tl.headD 0)
          && !(c == 240 && tl.headD 0 < 144) && !(c == 244 && 144 ≤ tl.headD 0)
      then k else -1

def Locale.utf8 : Locale := ⟨utf8Mblen⟩

/-- `LibraryDetection::file_in_library`, src/utils/library_detection.cpp:7-11. -/
def fileInLibrary (path : Str) : Bool :=
  startsWith path b! "/opt/compiler-explorer/" || startsWith path b! "/usr/include" ||
    startsWith path b! "/usr/local/include"

/-- C `atoi` (ISO C: leading white space, optional sign, digits up to the first other character or
the terminating NUL).  The mathematical value is returned; if it does not fit an `int` the C call is
undefined behaviour, see `updateSourceRefLineNumber`. -/
def atoi (s : Str) : Int :=
  let s := s.dropWhile isSpace
  match s with
  | c :: cs =>
    if c == c! '-' then - (decVal (cs.takeWhile isDigit) : Int)
    else if c == c! '+' then decVal (cs.takeWhile isDigit)
    else decVal ((c :: cs).takeWhile isDigit)
  | [] => 0

end AsmParser
