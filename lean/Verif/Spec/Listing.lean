/-
Specification: objdump listings as abstract syntax, how they are printed, and the output binary mode should produce.
-/
import Verif.Spec.Names
import Verif.Spec.Numbers

namespace AsmParser

/-- A piece of an instruction's text: plain text, or a reference `<name>` / `<name+offset>` (`off` is empty or starts
with `+`). -/
inductive Piece where
  | plain (t : Str)
  | ref (name off : Str)

def Piece.render : Piece → Str
  | .plain t => t
  | .ref name off => b! "<" ++ name ++ off ++ b! ">"

def Piece.Wf : Piece → Prop
  | .plain t => ∀ c ∈ t, c ≠ c! '<' ∧ c ≠ c! '#'
  | .ref name off => (∀ c ∈ name, c ≠ c! '<' ∧ c ≠ c! '#' ∧ c ≠ c! '>' ∧ c ≠ c! '+') ∧
      (off = [] ∨ off.head? = some c! '+') ∧ ∀ c ∈ off, c ≠ c! '<' ∧ c ≠ c! '#'

/-- The text of an instruction: pieces, then possibly a comment starting with `#`. -/
structure InstrText where
  pieces : List Piece
  comment : Str := []

def InstrText.render (t : InstrText) : Str := t.pieces.flatMap Piece.render ++ t.comment

structure InstrText.Wf (t : InstrText) : Prop where
  pieces : ∀ p ∈ t.pieces, p.Wf
  comment : t.comment = [] ∨ t.comment.head? = some c! '#'
  /-- printable in ASCII, on one line -/
  ascii : ∀ c ∈ t.render, 0 < c ∧ c < 128 ∧ c ≠ 10 ∧ c ≠ 13
  first : ∃ c cs, t.render = c :: cs ∧ isWhitespace c = false
  short : t.render.length ≤ 65533

/-- One line of a listing. -/
inductive Item where
  /-- blank line -/
  | blank (ws : Str)
  /-- `WORD:...` where `WORD` is no number: `a.out:     file format elf64-x86-64`, `main():` -/
  | note (word rest : Str)
  /-- `WORD ...` where `WORD` is no number: `f(int, char):` -/
  | prose (word rest : Str)
  /-- `Disassembly of section NAME:` -/
  | section (name rest : Str)
  /-- `ADDRESS <NAME>:` -/
  | header (addr name : Str)
  /-- `/PATH:LINE` and possibly ` (discriminator N)` -/
  | source (path line tail : Str)
  /-- `ADDRESS:  BYTES   TEXT` -/
  | instr (ws addr gap : Str) (bytes : List Str) (sep : Byte) (pad : Str) (text : InstrText)
  /-- `ADDRESS:  BYTES `: the remaining bytes of a long instruction -/
  | more (ws addr gap : Str) (bytes : List Str)
  /-- `ADDRESS: R_...`: a relocation -/
  | reloc (ws addr gap rest : Str)

/-- Is the line a function header? -/
def Item.isHeader : Item → Bool
  | .header .. => true
  | _ => false

def Item.render : Item → Str
  | .blank ws => ws
  | .note word rest => word ++ b! ":" ++ rest
  | .prose word rest => word ++ b! " " ++ rest
  | .section name rest => b! "Disassembly of section " ++ name ++ b! ":" ++ rest
  | .header addr name => addr ++ b! " <" ++ name ++ b! ">:"
  | .source path line tail => path ++ b! ":" ++ line ++ tail
  | .instr ws addr gap bytes sep pad text =>
    ws ++ addr ++ b! ":" ++ gap ++ bytes.flatMap (· ++ b! " ") ++ [sep] ++ pad ++ text.render
  | .more ws addr gap bytes => ws ++ addr ++ b! ":" ++ gap ++ bytes.flatMap (· ++ b! " ")
  | .reloc ws addr gap rest => ws ++ addr ++ b! ":" ++ gap ++ b! "R" ++ rest

/-- No line break. -/
def OneLine (s : Str) : Prop := (10 : Byte) ∉ s ∧ (13 : Byte) ∉ s
def AllBlank (s : Str) : Prop := ∀ c ∈ s, isWhitespace c = true
/-- A hexadecimal number below 2^31. -/
def IsAddr (s : Str) : Prop := s ≠ [] ∧ (∀ c ∈ s, isHex c = true) ∧ hexVal s < 2147483648
/-- A first word that is not a number, and does not end in a number of 2^32 or more. -/
def IsWord (s : Str) : Prop :=
  (∀ c ∈ s, isWhitespace c = false ∧ c ≠ c! ':' ∧ c ≠ c! '/' ∧ c ≠ c! ';') ∧ OneLine s ∧ (∃ c ∈ s, isHex c = false) ∧
  ∀ w, w <:+ s → (∀ c ∈ w, isHex c = true) → hexVal w < 4294967296
/-- Words of hexadecimal digits. -/
def IsBytes (bs : List Str) : Prop := bs ≠ [] ∧ ∀ b ∈ bs, b ≠ [] ∧ ∀ c ∈ b, isHex c = true

/-- Well-formed lines.  `ign` says whether the current function is one that is left out. -/
def Item.Wf (ign : Bool) : Item → Prop
  | .blank ws => AllBlank ws
  | .note word rest => IsWord word ∧ OneLine rest ∧ (ign = true → c! '<' ∉ rest)
  | .prose word rest => IsWord word ∧ OneLine rest ∧ word ≠ b! "Disassembly" ∧ ign = false
  | .section name rest => name ≠ [] ∧ c! ':' ∉ name ∧ OneLine name ∧ OneLine rest
  | .header addr name => IsAddr addr ∧ OneLine name
  | .source path line tail =>
    path.head? = some c! '/' ∧ c! ':' ∉ path ∧ OneLine path ∧
    line ≠ [] ∧ (∀ c ∈ line, isDigit c = true) ∧ decVal line < 2147483648 ∧
    (tail = [] ∨ (∃ c, tail.head? = some c ∧ isWhitespace c = true) ∧ OneLine tail)
  | .instr ws addr gap bytes sep pad text =>
    AllBlank ws ∧ IsAddr addr ∧ AllBlank gap ∧ IsBytes bytes ∧ isWhitespace sep = true ∧ AllBlank pad ∧ text.Wf
  | .more ws addr gap bytes => AllBlank ws ∧ IsAddr addr ∧ AllBlank gap ∧ IsBytes bytes
  | .reloc ws addr gap rest => AllBlank ws ∧ IsAddr addr ∧ AllBlank gap ∧ OneLine rest

/-- What precedes a line: the current section, source reference, and whether the current function is left out. -/
structure Ctx where
  sect : Str := []
  source : AsmSource := {}
  ign : Bool := false

open Classical in
/-- Is the function left out? -/
noncomputable def leftOut (plt : Bool) (name : Str) : Bool := decide (IgnoredName plt name)

/-- The references of an instruction's text, the text before them having length `off`. -/
noncomputable def pieceRefs (plt : Bool) : Nat → List Piece → List AsmLabel
  | _, [] => []
  | off, .plain t :: ps => pieceRefs plt (off + t.length) ps
  | off, .ref name o :: ps =>
    (if leftOut plt name then [] else [⟨name, off + 3, off + 3 + name.length⟩]) ++
      pieceRefs plt (off + (Piece.ref name o).render.length) ps

/-- What precedes the next line. -/
noncomputable def Ctx.after (plt : Bool) (c : Ctx) : Item → Ctx
  | .section name _ => { c with sect := name }
  | .header _ name => { c with ign := leftOut plt name }
  | .source path line tail =>
    -- in a function that is left out the line number is only taken up if something follows it
    { c with source := { file := path, line := if c.ign && tail.isEmpty then 0 else decVal line,
                         isUsercode := !inLibrary path } }
  | _ => c

/-- The output line for an item of a function that is kept. -/
noncomputable def Ctx.emit (plt : Bool) (c : Ctx) : Item → List AsmLine
  | .instr _ addr _ bytes _ _ text =>
    [{ text := c! ' ' :: text.render, sect := c.sect, source := c.source, address := some (hexVal addr),
       opcodes := bytes, labels := pieceRefs plt 0 text.pieces }]
  | .more _ addr _ bytes =>
    [{ text := c! ' ' :: bytes.flatMap (· ++ b! " "), sect := c.sect, source := c.source, address := some (hexVal addr) }]
  | .reloc _ addr _ rest =>
    [{ text := b! "    R" ++ rest.map (fun ch => if ch = 9 then 32 else ch), sect := c.sect, source := c.source,
       address := some (hexVal addr) }]
  | _ => []

/-- The output of one line. -/
noncomputable def Ctx.out (plt : Bool) (c : Ctx) (i : Item) : List AsmLine :=
  match i with
  | .header addr name =>
    if leftOut plt name then []
    else [{ text := name ++ b! ":", label := name, isLabel := true, sect := c.sect, source := c.source,
            -- the header behind a function that is left out loses its address
            address := if c.ign then none else some (hexVal addr) }]
  | i => if c.ign then [] else c.emit plt i

/-- The expected output of a listing. -/
noncomputable def expected (plt : Bool) : Ctx → List Item → List AsmLine
  | _, [] => []
  | c, i :: is => c.out plt i ++ expected plt (c.after plt i) is

/-- All lines are well-formed. -/
noncomputable def WfListing (plt : Bool) : Ctx → List Item → Prop
  | _, [] => True
  | c, i :: is => i.Wf c.ign ∧ WfListing plt (c.after plt i) is

/-! What precedes a line. -/

def sourceStep (s : AsmSource) : Item → AsmSource
  | .source path line _ => { file := path, line := decVal line, isUsercode := !inLibrary path }
  | _ => s
/-- The last source reference. -/
def sourceBefore (is : List Item) : AsmSource := is.foldl sourceStep {}

def sectionStep (s : Str) : Item → Str
  | .section name _ => name
  | _ => s
/-- The name in the last section header. -/
def sectionBefore (is : List Item) : Str := is.foldl sectionStep []

def headerStep (s : Option Str) : Item → Option Str
  | .header _ name => some name
  | _ => s
/-- The last function. -/
def lastHeader (is : List Item) : Option Str := is.foldl headerStep none

/-- The printed listing. -/
def renderListing (is : List Item) : Str := unlines (is.map Item.render)

end AsmParser
