/-
Specification: a JSON reader (RFC 8259), and the JSON value a document should be printed as.

The reader works on bytes: strings are byte strings, characters outside ASCII are copied as they are (a reader that
insists on valid UTF-8 additionally requires the strings of the document to be valid UTF-8).
-/
import Verif.Model.Types

namespace AsmParser

/-- JSON values.  A number is `mantissa * 10^exponent` as written; objects keep the order and duplicates of members. -/
inductive JVal where
  | null
  | bool (b : Bool)
  | num (mantissa : Int) (exponent : Int := 0)
  | str (s : Str)
  | arr (vs : List JVal)
  | obj (ms : List (Str × JVal))
deriving BEq

/-- RFC 8259 section 2: insignificant white space. -/
def isJsonWs (c : Byte) : Bool := c == 32 || c == 9 || c == 10 || c == 13

def skipWs (s : Str) : Str := s.dropWhile isJsonWs

/-- Value of a hexadecimal digit of either case. -/
def hexDigit? (c : Byte) : Option Nat :=
  if 48 ≤ c && c ≤ 57 then some (c.toNat - 48)
  else if 97 ≤ c && c ≤ 102 then some (c.toNat - 87)
  else if 65 ≤ c && c ≤ 70 then some (c.toNat - 55)
  else none

/-- Four hexadecimal digits. -/
def readHex4 : Str → Option (Nat × Str)
  | a :: b :: c :: d :: rest => do
    let a ← hexDigit? a
    let b ← hexDigit? b
    let c ← hexDigit? c
    let d ← hexDigit? d
    return (((a * 16 + b) * 16 + c) * 16 + d, rest)
  | _ => none

/-- UTF-8 encoding of a code point. -/
def utf8Encode (n : Nat) : Str :=
  if n < 128 then [UInt8.ofNat n]
  else if n < 2048 then [UInt8.ofNat (192 + n / 64), UInt8.ofNat (128 + n % 64)]
  else if n < 65536 then
    [UInt8.ofNat (224 + n / 4096), UInt8.ofNat (128 + n / 64 % 64), UInt8.ofNat (128 + n % 64)]
  else
    [UInt8.ofNat (240 + n / 262144), UInt8.ofNat (128 + n / 4096 % 64), UInt8.ofNat (128 + n / 64 % 64),
     UInt8.ofNat (128 + n % 64)]

/-- What follows `\u`: four digits, or a surrogate pair. -/
def readUnicode (s : Str) : Option (Str × Str) := do
  let (u, rest) ← readHex4 s
  if 0xD800 ≤ u ∧ u < 0xDC00 then
    match rest with
    | 92 :: 117 :: rest' =>
      let (v, rest'') ← readHex4 rest'
      if 0xDC00 ≤ v ∧ v < 0xE000 then
        return (utf8Encode (0x10000 + (u - 0xD800) * 0x400 + (v - 0xDC00)), rest'')
      else none
    | _ => none
  else if 0xDC00 ≤ u ∧ u < 0xE000 then none
  else return (utf8Encode u, rest)

/-- The two-character escapes. -/
def simpleEscape (c : Byte) : Option Byte :=
  if c == c! '"' then some c! '"'
  else if c == c! '\\' then some c! '\\'
  else if c == c! '/' then some c! '/'
  else if c == c! 'b' then some 8
  else if c == c! 'f' then some 12
  else if c == c! 'n' then some 10
  else if c == c! 'r' then some 13
  else if c == c! 't' then some 9
  else none

/-- One character of a string: an escape, or a character that is no quote, backslash or control character. -/
def readChar : Str → Option (Str × Str)
  | 92 :: 117 :: rest => readUnicode rest
  | 92 :: e :: rest => (simpleEscape e).map fun c => ([c], rest)
  | c :: rest => if c < 32 || c == c! '"' || c == c! '\\' then none else some ([c], rest)
  | [] => none

/-- The rest of a string literal behind the opening quote. -/
def readString : Nat → Str → Option (Str × Str)
  | 0, _ => none
  | _ + 1, 34 :: rest => some ([], rest)
  | n + 1, s => do
    let (b, r) ← readChar s
    let (t, r') ← readString n r
    return (b ++ t, r')

/-- Value of a string of decimal digits. -/
def digitsVal (s : Str) : Nat := s.foldl (fun n c => n * 10 + (c.toNat - 48)) 0

def isDec (c : Byte) : Bool := 48 ≤ c && c ≤ 57

/-- Digits, at least one. -/
def readDigits (s : Str) : Option (Str × Str) :=
  let d := s.takeWhile isDec
  if d.isEmpty then none else some (d, s.dropWhile isDec)

/-- An optional minus sign. -/
def readSign : Str → Bool × Str
  | 45 :: s => (true, s)
  | s => (false, s)

/-- An optional fraction: `.` and digits. -/
def readFraction : Str → Option (Str × Str)
  | 46 :: s => readDigits s
  | s => some ([], s)

/-- An optional exponent: `e` or `E`, an optional sign, and digits. -/
def readExponent : Str → Option (Int × Str)
  | 101 :: s => signed s
  | 69 :: s => signed s
  | s => some (0, s)
where
  signed : Str → Option (Int × Str)
    | 45 :: s => (readDigits s).map fun (d, r) => (-(digitsVal d : Int), r)
    | 43 :: s => (readDigits s).map fun (d, r) => ((digitsVal d : Int), r)
    | s => (readDigits s).map fun (d, r) => ((digitsVal d : Int), r)

/-- A number: `-? (0 | [1-9][0-9]*) (. [0-9]+)? ([eE] [+-]? [0-9]+)?`. -/
def readNumber (s : Str) : Option (JVal × Str) :=
  let neg := (readSign s).1
  (readDigits (readSign s).2).bind fun (i, s) =>
    if i.length > 1 && i.head? == some c! '0' then none
    else (readFraction s).bind fun (f, s) => (readExponent s).bind fun (e, s) =>
      some (.num (if neg then -(digitsVal (i ++ f) : Int) else digitsVal (i ++ f)) (e - f.length), s)

mutual
/-- A value (without surrounding white space); the first argument bounds the number of steps. -/
def readValue : Nat → Str → Option (JVal × Str)
  | 0, _ => none
  | n + 1, s =>
    match s with
    | 123 :: rest => -- {
      match skipWs rest with
      | 125 :: rest' => some (.obj [], rest')
      | rest' => (readMembers n rest').map fun (ms, r) => (.obj ms, r)
    | 91 :: rest => -- [
      match skipWs rest with
      | 93 :: rest' => some (.arr [], rest')
      | rest' => (readElements n rest').map fun (vs, r) => (.arr vs, r)
    | 34 :: rest => (readString n rest).map fun (t, r) => (.str t, r)
    | 110 :: 117 :: 108 :: 108 :: rest => some (.null, rest)
    | 116 :: 114 :: 117 :: 101 :: rest => some (.bool true, rest)
    | 102 :: 97 :: 108 :: 115 :: 101 :: rest => some (.bool false, rest)
    | s => readNumber s
/-- The elements of a non-empty array and the closing bracket. -/
def readElements : Nat → Str → Option (List JVal × Str)
  | 0, _ => none
  | n + 1, s => do
    let (v, r) ← readValue n s
    match skipWs r with
    | 44 :: r => -- ,
      let (vs, r) ← readElements n (skipWs r)
      return (v :: vs, r)
    | 93 :: r => return ([v], r)
    | _ => none
/-- The members of a non-empty object and the closing brace. -/
def readMembers : Nat → Str → Option (List (Str × JVal) × Str)
  | 0, _ => none
  | n + 1, s =>
    match s with
    | 34 :: r => do
      let (k, r) ← readString n r
      match skipWs r with
      | 58 :: r => -- :
        let (v, r) ← readValue n (skipWs r)
        match skipWs r with
        | 44 :: r => -- ,
          let (ms, r) ← readMembers n (skipWs r)
          return ((k, v) :: ms, r)
        | 125 :: r => return ([(k, v)], r)
        | _ => none
      | _ => none
    | _ => none
end

/-- Read a JSON text: one value, surrounded by white space. -/
def readJson (s : Str) : Option JVal :=
  match readValue (s.length + 1) (skipWs s) with
  | some (v, r) => if (skipWs r).isEmpty then some v else none
  | none => none

/-! ### The value of a document -/

/-- The user's main source file. -/
def MainFile (file : Str) : Prop := b! "/app/example." <+: file ∨ b! "example." <+: file

instance (file : Str) : Decidable (MainFile file) := inferInstanceAs (Decidable (_ ∨ _))

/-- The file name that is shown: nothing for an unknown file and for the main source file (unless masking is off),
otherwise the name without a leading `/app/`. -/
def shownFile (mask : Bool) (file : Str) : Option Str :=
  if file = [] ∨ (mask = true ∧ MainFile file) then none
  else if b! "/app/" <+: file then some (file.drop 5) else some file

def optStr : Option Str → JVal
  | none => .null
  | some s => .str s

/-- An optional number member. -/
def optNum (k : Str) : Option Int → List (Str × JVal)
  | none => []
  | some z => [(k, .num z)]

/-- A line has a source position if its line number is positive and it is not a bare label. -/
def HasPosition (l : AsmLine) : Prop := 0 < l.source.line ∧ (l.isLabel = true → l.hasOpcode = true)

instance (l : AsmLine) : Decidable (HasPosition l) := inferInstanceAs (Decidable (_ ∧ _))

/-- The source position of a line. -/
def positionJson (mask : Bool) (l : AsmLine) : JVal :=
  if HasPosition l then
    .obj ((if l.source.column = 0 then [] else [(b! "column", .num l.source.column)]) ++
      [(b! "file", optStr (shownFile mask l.source.file)),
       (b! "mainsource", .str (if l.source.file = [] ∨ MainFile l.source.file then b! "true" else b! "false")),
       (b! "line", .num l.source.line)])
  else .null

def refJson (r : AsmLabel) : JVal :=
  .obj [(b! "name", .str r.name), (b! "range", .obj [(b! "startCol", .num r.startCol), (b! "endCol", .num r.endCol)])]

/-- A line.  Compatibility mode leaves out sections, and the addresses of labels. -/
def lineJson (compat mask : Bool) (l : AsmLine) : JVal :=
  .obj ([(b! "labels", .arr (l.labels.map refJson))] ++
    (if l.opcodes = [] then [] else [(b! "opcodes", .arr (l.opcodes.map .str))]) ++
    optNum b! "address" (if compat = true ∧ l.isLabel = true then none else l.address) ++
    [(b! "source", positionJson mask l)] ++
    (if l.sect = [] ∨ compat = true then [] else [(b! "section", .str l.sect)]) ++
    [(b! "text", .str l.text)])

/-- A document: lines, label definitions, running time (unless reproducible), number of lines dropped. -/
def documentJson (f : Filter) (lines : List AsmLine) (labels : List LabelPair) (time : Option Int) (dropped : Int) : JVal :=
  .obj ([(b! "asm", .arr (lines.map (lineJson f.compatmode (!f.dontMaskFilenames)))),
     (b! "labelDefinitions", .obj (labels.map fun d => (d.1, .num d.2)))] ++
    optNum b! "parsingTime" time ++
    [(b! "filteredCount", .num dropped)])

/-! ### Strings that can be printed -/

/-- No control characters other than tab. -/
def NoControl (s : Str) : Prop := ∀ c ∈ s, 32 ≤ c ∨ c = 9
/-- No character that would need escaping. -/
def NoEscape (s : Str) : Prop := ∀ c ∈ s, 32 ≤ c ∧ c ≠ c! '"' ∧ c ≠ c! '\\'

/-- The strings of a line can be printed. -/
structure LinePrintable (l : AsmLine) : Prop where
  text : NoControl l.text
  sect : NoControl l.sect
  file : NoControl l.source.file
  refs : ∀ r ∈ l.labels, NoControl r.name
  opcodes : ∀ o ∈ l.opcodes, NoEscape o

/-- No string that is written for a line contains a control character, apart from tabs (which are escaped unless they are in an
opcode). -/
structure LineWritable (f : Filter) (l : AsmLine) : Prop where
  text : NoControl l.text
  sect : f.compatmode = false → NoControl l.sect
  file : ∀ s, HasPosition l → shownFile (!f.dontMaskFilenames) l.source.file = some s → NoControl s
  refs : ∀ r ∈ l.labels, NoControl r.name
  opcodes : ∀ o ∈ l.opcodes, ∀ c ∈ o, 32 ≤ c

/-! ### Looking into JSON values -/

/-- The first member of that name. -/
def JVal.get (k : Str) : JVal → Option JVal
  | .obj ms => ms.lookup k
  | _ => none

/-- The elements of an array. -/
def JVal.elems : JVal → List JVal
  | .arr vs => vs
  | _ => []

mutual
/-- No object has two members of the same name. -/
def JVal.unique : JVal → Bool
  | .obj ms => decide (ms.map (·.1)).Nodup && uniqueMembers ms
  | .arr vs => uniqueElements vs
  | _ => true
def uniqueMembers : List (Str × JVal) → Bool
  | [] => true
  | (_, v) :: ms => v.unique && uniqueMembers ms
def uniqueElements : List JVal → Bool
  | [] => true
  | v :: vs => v.unique && uniqueElements vs
end

end AsmParser
