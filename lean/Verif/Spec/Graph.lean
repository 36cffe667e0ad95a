/-
Specification: the labels of an input and the references between them.
-/
import Verif.Spec.Sources
import Verif.Spec.References

namespace AsmParser

/-! ### Single lines -/

/-- The part of a line that tells whether it is an instruction: without the comment and the blanks before it, or, if there is no
comment, without the last word unless it is the only one. -/
def counted (line : Str) : Str :=
  let code := line.takeWhile fun c => decide (¬ CommentChar c)
  let most := trimRight (line.reverse.dropWhile fun c => decide (¬ Blank c)).reverse
  if code.length < line.length then (if Blanks code then code else trimRight code)
  else if most = [] then line else most

/-- An instruction: what counts of the line contains `.inst`, or begins with a letter and is not just `name =`.  In CUDA code the
only instructions without `.inst` are single characters. -/
def Instruction (code : Bool) (line : Str) : Prop :=
  Contains (counted line) b! ".inst" ∨
    (∀ l, ¬ AssignsOnly (counted line) l) ∧
      if code then ∃ bs c, Blanks bs ∧ (Letter c ∨ c = c! '@' ∨ c = c! '|') ∧ counted line = bs ++ [c]
      else BeginsWithLetter (counted line)

/-- `.entry name(` or `.func name(`, possibly with a parenthesised return value before the name. -/
def CudaStart (s kind : Str) : Prop :=
  ∃ bs ret c t, kind ∈ [b! "entry", b! "func"] ∧ bs ≠ [] ∧ Blanks bs ∧
    (ret = [] ∨ ∃ x bs', ret = b! "(" ++ x ++ b! ")" ++ bs' ∧ (∀ d ∈ x, d ≠ c! ')') ∧ Blanks bs') ∧
    (SymbolStart c ∨ c = c! '$') ∧ (∀ d ∈ t, SymbolChar d) ∧
    s = b! "." ++ kind ++ bs ++ ret ++ (c :: t) ++ b! "("

/-- The first place where a CUDA function header begins. -/
def FirstCuda (line kind : Str) : Prop :=
  ∃ a r, line = a ++ r ∧ CudaStart r kind ∧ ∀ a' r' k, line = a' ++ r' → CudaStart r' k → a.length ≤ a'.length

/-- The line defines the label `l` at the current address.  (The label of a CUDA function is the keyword, not its name.) -/
def Places (line l : Str) : Prop := DefinesLabel line l ∨ StartsCuda line ∧ FirstCuda line l

/-- The line gives a value to the label `l`. -/
def Assigns (line l : Str) : Prop := AssignsLabel line l ∨ AssignsOnly line l

/-- The line declares the symbol weak.  (`.weakext` could also be read as `.weak` with the symbol `ext`.) -/
def DeclaresWeak (line a : Str) : Prop :=
  DeclaresSymbol [b! ".weakext"] line a ∨ DeclaresSymbol [b! ".weak"] line a ∧ ¬ ∃ b, DeclaresSymbol [b! ".weakext"] line b

/-! ### Lines of the input -/

/-- The line has source information. -/
def Seen.Info (t : Seen) : Prop := ¬ t.Ends ∧ SourceInfo t.text

/-- The line defines the label `l`. -/
def Seen.Defines (t : Seen) (l : Str) : Prop := t.skipped = false ∧ ¬ t.Info ∧ (Places t.text l ∨ Assigns t.text l)

/-- The line counts and defines no label. -/
def Seen.Plain (t : Seen) : Prop := t.skipped = false ∧ ∀ l, ¬ t.Defines l

/-- The line is an instruction. -/
def Seen.Instr (t : Seen) : Prop := t.Plain ∧ Instruction t.code t.text

/-- The line places data. -/
def Seen.Data (t : Seen) : Prop := t.Plain ∧ ¬ t.Info ∧ StartsWithOneOf dataDirectives t.text

/-- The line makes the symbol `a` externally visible. -/
def Seen.Exports (t : Seen) (a : Str) : Prop :=
  t.skipped = false ∧ t.params = false ∧ PlainDirective t.text ∧ DeclaresSymbol globalDirectives t.text a

/-- The line declares the symbol `a` as global or weak. -/
def Seen.Declares (t : Seen) (a : Str) : Prop :=
  t.Exports a ∨ t.skipped = false ∧ t.params = false ∧ PlainDirective t.text ∧ DeclaresWeak t.text a

/-- The line ends the part of the program below a label. -/
def Seen.Clears (t : Seen) : Prop := t.Ends ∨ ∃ k n, StabDirective t.text k n ∧ (k = 100 ∨ k = 132)

/-- A label is internal if it begins with `.`, `$` or `L`. -/
def Internal (l : Str) : Prop := ∃ c r, l = c :: r ∧ (c = c! '.' ∨ c = c! '$' ∨ c = c! 'L')

/-! ### Places in the input -/

/-- The label below which the lines after `ts` stand: the last one that was defined, if nothing ended its part. -/
inductive LabelAt : List Seen → Str → Prop
  | start : LabelAt [] []
  | label {ts t l} : t.Defines l → LabelAt (ts ++ [t]) l
  | clear {ts t} : (∀ l, ¬ t.Defines l) → t.Clears → LabelAt (ts ++ [t]) []
  | keep {ts t l} : (∀ l, ¬ t.Defines l) → ¬ t.Clears → LabelAt ts l → LabelAt (ts ++ [t]) l

/-- The function in which the lines after `ts` stand: the last label that is not internal. -/
inductive FunctionAt : List Seen → Str → Prop
  | start : FunctionAt [] []
  | label {ts t l} : t.Defines l → ¬ Internal l → FunctionAt (ts ++ [t]) l
  | keep {ts t l} : (∀ l, t.Defines l → Internal l) → FunctionAt ts l → FunctionAt (ts ++ [t]) l

/-- The label at the address after `ts`: the last one that was placed, if there was neither code nor data nor an assignment since. -/
inductive AddressAt : List Seen → Str → Prop
  | start : AddressAt [] []
  | place {ts t l} : t.Defines l → Places t.text l → AddressAt (ts ++ [t]) l
  | assign {ts t l} : t.Defines l → Assigns t.text l → AddressAt (ts ++ [t]) []
  | next {ts t} : t.Instr ∨ t.Data → AddressAt (ts ++ [t]) []
  | keep {ts t l} : (∀ l, ¬ t.Defines l) → ¬ t.Instr → ¬ t.Data → AddressAt ts l → AddressAt (ts ++ [t]) l

/-! ### References -/

/-- `P` holds for one of the lines and those before it. -/
def Somewhere (ts : List Seen) (P : List Seen → Seen → Prop) : Prop := ∃ before t after, ts = before ++ t :: after ∧ P before t

/-- An instruction in the function `b` mentions `a`, or a directive below the label `b` declares it. -/
def CodeUse (ts : List Seen) (a b : Str) : Prop :=
  Somewhere ts fun before t =>
    t.Instr ∧ a ∈ mentioned t.text ∧ FunctionAt before b ∧ a ≠ b ∨ t.Declares a ∧ LabelAt (before ++ [t]) b

/-- Data below the label `b` mentions `a`; or data in the function `b`, if its position is by the index of a file. -/
def DataUse (ts : List Seen) (a b : Str) : Prop :=
  Somewhere ts fun before t => t.Data ∧ a ∈ mentioned t.text ∧
    (LabelAt (before ++ [t]) b ∨ FunctionAt before b ∧ ∃ i n c, PositionAt (before ++ [t]) (some (.indexed i n c)))

/-- The label `b` was last placed at the address of the label `a`, not counting addresses without label. -/
def SameAddress (ts : List Seen) (b a : Str) : Prop :=
  a ≠ [] ∧ ∃ before t after, ts = before ++ t :: after ∧ t.Defines b ∧ Places t.text b ∧ AddressAt before a ∧
    ∀ x u y, after = x ++ u :: y → u.Defines b → Places u.text b → AddressAt (before ++ t :: x) []

/-- The labels in use: exported ones, and those that code outside functions or something in use refers to. -/
inductive InUse (ts : List Seen) : Str → Prop
  | exported {t a} : t ∈ ts → t.Exports a → InUse ts a
  | outside {t a} : t ∈ ts → t.Defines a → CodeUse ts a [] → InUse ts a
  | code {t a b} : t ∈ ts → t.Defines a → CodeUse ts a b → InUse ts b → InUse ts a
  | data {a b} : DataUse ts a b → InUse ts b → InUse ts a

/-- There is a chain of references from `b` to `a` through labels that are not exported (`b` may be). -/
inductive UseChain (ts : List Seen) : Str → Str → Prop
  | refl {a} : UseChain ts a a
  | step {a b c} : (∀ t ∈ ts, ¬ t.Exports a) → ((∃ t ∈ ts, t.Defines a) ∧ CodeUse ts a b ∨ DataUse ts a b) → UseChain ts b c → UseChain ts a c

end AsmParser
