/-
`AssemblyTextParser`, src/assembly/parser.cpp and src/assembly/parser.hpp.

Mutating member functions become functions returning the new state.

*Views.*  The C++ keeps `std::string_view`s into the text of lines it has parsed.  A view is modelled by
its contents plus a ghost owner: the allocation number of the `asm_line_v` whose text it points into
(`none`: empty view, string literal, or a string owned by the parser's `files` map).  Each call of `eol`
uses two allocation numbers: `nextId` for `state.currentLine` and `nextId + 1` for the blank line of
`maybeAddBlank`.  A view is live iff its owner is still stored in `lines` or `state.filteredlines`, or is
the current line.  Views whose owner is obviously the line that stores them (`label`, `labels[i].name`)
carry no owner.

*Hash containers.*  `unordered_map` / `unordered_set` are association lists / lists without duplicates;
the order in which the C++ iterates over one is an arbitrary parameter (`Order`).
-/
import Verif.Model.TextUtils
import Verif.Model.Json

namespace AsmParser

/-- A `std::string_view` with a ghost owner. -/
structure View where
  s : Str := []
  own : Option Nat := none
deriving Repr, DecidableEq

/-- `asm_source_v`, src/types/line.hpp:56-65.  `is_end` is never set to `true` and never read. -/
structure TSource where
  file : View := {}
  fileIdx : Int := 0
  line : Int := 0
  column : Int := 0
  isUsercode : Bool := false
  insideProc : Bool := false
deriving Repr, DecidableEq

/-- `asm_line_v`, src/types/line.hpp:117-138, as the text parser uses it: `opcodes` stays empty and
`address` unset.  `id` is the ghost allocation number.  (`make_unique<asm_line_v>()` value-initialises,
so `source` starts out as zeros although it has no initialiser.) -/
structure TLine where
  id : Nat
  text : Str := []
  sect : View := {}
  labels : List AsmLabel := []
  closestParentLabel : Str := []
  isLabel : Bool := false
  isInternalLabel : Bool := false
  label : Str := []
  source : TSource := {}
  isUsed : Bool := false
  isUsedThroughAlias : Bool := false
  isUsedDataThroughAlias : Bool := false
  isData : Bool := false
  isInlineAsm : Bool := false
  hasOpcode : Bool := false
  isDirective : Bool := false
  isAssignment : Bool := false
deriving Repr, DecidableEq

/-- `AssemblyTextParserState`, src/assembly/parser.hpp:16-43.  Omitted: `stopParsing` (never set; the
5000-line limit is commented out, parser.cpp:302-309), `hasProcMarkers` (never read),
`currentLabelReference` (never used), `currentLine` (a local value of `eol` in the model). -/
structure TState where
  hasStartedCommentBlock : Bool := false
  mayRemovePreviousLabel : Bool := true
  keepInlineCode : Bool := false
  /-- `lastOwnSource.line`, the only part of `lastOwnSource` that is read -/
  lastOwnSourceLine : Int := 0
  inNvccDef : Bool := false
  inNvccCode : Bool := false
  inCustomAssembly : Int := 0
  currentSourceRef : TSource := {}
  previousLabel : View := {}
  previousParentLabel : View := {}
  previousLabelOnSameAddress : View := {}
  text : Str := []
  currentFilename : Str := []
  currentSection : View := {}
  currentSourceFile : View := {}
  filteredLines : List TLine := []
deriving Repr, DecidableEq

/-- The label bookkeeping of `AssemblyTextParser`, src/assembly/parser.hpp:54-58.  In
`used`, `dataUsed`, `weaklyUsed` the key is the label that is referred to, the set contains the labels
that refer to it. -/
structure Usage where
  usercode : List Str := []
  used : List (Str × List Str) := []
  dataUsed : List (Str × List Str) := []
  weaklyUsed : List (Str × List Str) := []
  aliased : List (Str × Str) := []
deriving Repr, DecidableEq

/-- `AssemblyTextParser`, src/assembly/parser.hpp:45-62. -/
structure TParser where
  filter : Filter
  st : TState := {}
  files : List (Int × Str) := []
  lines : List TLine := []
  labelsDefined : List (Str × Nat) := []
  usage : Usage := {}
  reproducible : Bool := false
  totalLines : Nat := 0
  /-- ghost: next allocation number -/
  nextId : Nat := 0
  /-- ghost: owners of the views that were stored in the hash containers or as `closestParentLabel` of a line -/
  stored : List (Option Nat) := []
  /-- ghost: undefined behaviour has occurred -/
  ub : Bool := false
deriving Repr, DecidableEq

/-- Constructor, src/assembly/parser.cpp:10-13. -/
def TParser.init (filter : Filter) : TParser := { filter }

/-- `setReproducible`, src/assembly/parser.cpp:15-18. -/
def TParser.setReproducible (p : TParser) : TParser := { p with reproducible := true }

/-! ### Hash containers -/

/-- `map[k] = v` -/
def assocSet {α β : Type} [BEq α] (k : α) (v : β) : List (α × β) → List (α × β)
  | [] => [(k, v)]
  | (k', v') :: m => if k' == k then (k', v) :: m else (k', v') :: assocSet k v m

/-- `set.insert(v)` -/
def setInsert (v : Str) (l : List Str) : List Str := if l.contains v then l else l ++ [v]

/-- `map[k].insert(v)` -/
def addRef (k v : Str) : List (Str × List Str) → List (Str × List Str)
  | [] => [(k, [v])]
  | (k', vs) :: m => if k' == k then (k', setInsert v vs) :: m else (k', vs) :: addRef k v m

/-! ### Directive handlers -/

/-- One step of `amendPreviousLinesWith`, src/assembly/parser.cpp:533-539. -/
def TLine.amend (src : TSource) (l : TLine) : TLine :=
  { l with source := { src with isUsercode := src.isUsercode && !l.isInternalLabel } }

/-- The loop of `amendPreviousLinesWith` over the *reversed* lines, src/assembly/parser.cpp:526-550. -/
def amendRev (src : TSource) : List TLine → List TLine
  | [] => []
  | l :: ls =>
    if l.isLabel then
      if l.isInternalLabel then l.amend src :: amendRev src ls else l.amend src :: ls
    else l :: ls

/-- `amendPreviousLinesWith`, src/assembly/parser.cpp:526-550. -/
def TParser.amendPreviousLinesWith (p : TParser) (src : TSource) : TParser :=
  { p with lines := (amendRev src p.lines.reverse).reverse }

/-- `markPreviousInternalLabelAsInsideProc`, src/assembly/parser.cpp:552-570: only the last line is ever
looked at, because both branches `break`. -/
def TParser.markPreviousInternalLabelAsInsideProc (p : TParser) : TParser :=
  { p with lines :=
      match p.lines.reverse with
      | [] => []
      | l :: ls =>
        ((if l.isLabel && l.isInternalLabel then { l with source := { l.source with insideProc := true } }
          else l) :: ls).reverse }

/-- `handleFiledef`, src/assembly/parser.cpp:52-64. -/
def TParser.handleFiledef (p : TParser) (line : Str) : Option TParser :=
  (getFileDef line).map fun d => { p with files := assocSet d.1 d.2 p.files }

/-- `handleSource`, src/assembly/parser.cpp:66-84.  `file` and `is_usercode` of the current source
reference are left as they are. -/
def TParser.handleSource (p : TParser) (line : Str) : Option TParser :=
  let r := getSourceRef line
  if r.1 ≠ 0 then
    let src := { p.st.currentSourceRef with
      fileIdx := r.1, line := r.2.1, column := r.2.2, insideProc := true }
    some ({ p with st := { p.st with currentSourceRef := src } }.amendPreviousLinesWith src)
  else none

/-- `handleStabs`, src/assembly/parser.cpp:27-50. -/
def TParser.handleStabs (p : TParser) (line : Str) : Option TParser :=
  (getSourceInfoFromStabs line).map fun r =>
    if r.1 = 68 then { p with st := { p.st with currentSourceRef := { line := r.2 } } }
    else if r.1 = 100 ∨ r.1 = 132 then
      { p with st := { p.st with currentSourceRef := {}, previousLabel := {} } }
    else p

/-- `handle6502`, src/assembly/parser.cpp:173-188.  The file name is a view into the current line. -/
def TParser.handle6502 (p : TParser) (id : Nat) (line : Str) : Option TParser :=
  (get6502DbgInfo line).map fun d =>
    if !d.isEnd then
      { p with st := { p.st with currentSourceRef := { file := ⟨d.file, some id⟩, line := d.line } } }
    else p

/-- Is the view with this owner still backed by an existing line? -/
def TParser.live (p : TParser) (cur : Nat) : Option Nat → Bool
  | none => true
  | some i => i == cur || p.lines.any (fun l => l.id == i) || p.st.filteredLines.any (fun l => l.id == i)

/-- `handleD2`, src/assembly/parser.cpp:140-171.  `isExampleOrStdin` reads the characters of the view
`currentSourceFile`, which is undefined behaviour if its owner is gone. -/
def TParser.handleD2 (p : TParser) (id : Nat) (line : Str) : Option TParser :=
  match getD2LineInfo line with
  | some n =>
    let src : TSource :=
      { file := p.st.currentSourceFile, line := n,
        isUsercode := isExampleOrStdin p.st.currentSourceFile.s }
    some ({ p with st := { p.st with currentSourceRef := src },
                   ub := p.ub || !p.live id p.st.currentSourceFile.own }.amendPreviousLinesWith src)
  | none =>
    (getD2FileInfo line).map fun f => { p with st := { p.st with currentSourceFile := ⟨f, some id⟩ } }

/-- `handleSection`, src/assembly/parser.cpp:190-200.  The name is a view into the current line. -/
def TParser.handleSection (p : TParser) (id : Nat) (line : Str) : TParser :=
  match getSectionNameDef line with
  | some s => { p with st := { p.st with currentSection := ⟨s, some id⟩ } }
  | none => p

/-! ### Label bookkeeping -/

/-- `extractUsedLabelsFromDirective`, src/assembly/parser.cpp:202-218. -/
def TParser.extractUsedLabelsFromDirective (p : TParser) (id : Nat) (line : Str) : TParser :=
  match getWeakDefinedLabel line with
  | some w =>
    { p with usage := { p.usage with used := addRef w p.st.previousLabel.s p.usage.used },
             stored := some id :: p.st.previousLabel.own :: p.stored }
  | none =>
    match getGlobalDefinedLabel line with
    | some g =>
      { p with usage := { p.usage with
                  usercode := setInsert g p.usage.usercode
                  used := addRef g p.st.previousLabel.s p.usage.used },
               stored := some id :: p.st.previousLabel.own :: p.stored }
    | none => p

/-- `extractUsedLabelsFromOpcodeLine`, src/assembly/parser.cpp:220-229. -/
def TParser.extractUsedLabelsFromOpcodeLine (L : Locale) (p : TParser) (ln : TLine) : TParser × TLine :=
  let refs := getUsedLabelsInLine L ln.text
  let parent := p.st.previousParentLabel
  ({ p with
      usage := { p.usage with
        used := refs.foldl (fun m r => if r.name ≠ parent.s then addRef r.name parent.s m else m)
          p.usage.used }
      stored := if refs.isEmpty then p.stored else some ln.id :: parent.own :: p.stored },
    { ln with labels := refs })

/-- `extractUsedLabelsFromDataLine`, src/assembly/parser.cpp:231-244. -/
def TParser.extractUsedLabelsFromDataLine (L : Locale) (p : TParser) (ln : TLine) : TParser × TLine :=
  let refs := getUsedLabelsInLine L ln.text
  let prev := p.st.previousLabel
  let parent := p.st.previousParentLabel
  let inside := p.st.currentSourceRef.insideProc
  ({ p with
      usage := { p.usage with
        dataUsed := refs.foldl (fun m r =>
            if inside then addRef r.name parent.s (addRef r.name prev.s m) else addRef r.name prev.s m)
          p.usage.dataUsed }
      stored := if refs.isEmpty then p.stored else some ln.id :: prev.own :: parent.own :: p.stored },
    { ln with labels := refs })

/-- `handleLabelAliasing`, src/assembly/parser.cpp:246-271. -/
def TParser.handleLabelAliasing (p : TParser) (ln : TLine) : TParser :=
  let p :=
    if !p.st.previousLabelOnSameAddress.s.isEmpty then
      if !ln.isAssignment then
        if ln.isLabel then
          { p with usage := { p.usage with
                      aliased := assocSet ln.label p.st.previousLabelOnSameAddress.s p.usage.aliased }
                   stored := some ln.id :: p.st.previousLabelOnSameAddress.own :: p.stored }
        else if ln.hasOpcode || ln.isData then
          { p with st := { p.st with previousLabelOnSameAddress := {} } }
        else p
      else { p with st := { p.st with previousLabelOnSameAddress := {} } }
    else p
  if ln.isLabel && !ln.isAssignment then
    { p with st := { p.st with previousLabelOnSameAddress := ⟨ln.label, some ln.id⟩ } }
  else p

/-- `isInternalLabel`, src/assembly/parser.cpp:521-524. -/
def isInternalLabel (label : Str) : Bool :=
  startsWith label b! "." || startsWith label b! "$" || startsWith label b! "L"

/-- `getLabelFromLine`, src/assembly/parser.cpp:86-117: the label and whether the line is an assignment,
and whether a CUDA definition starts here. -/
def getLabelFromLine (line : Str) : Option (Str × Bool × Bool) :=
  match getLabel line with
  | some l => some (l, false, false)
  | none =>
    match getLabelAssignment line with
    | some l => some (l, true, false)
    | none =>
      match getAssignmentDef line with
      | some l => some (l, true, false)
      | none =>
        match getCudaLabel line with
        | some l => some (l, false, true)
        | none => none

/-- `handleLabelDefinition`, src/assembly/parser.cpp:273-295. -/
def TParser.handleLabelDefinition (p : TParser) (ln : TLine) : TParser × TLine :=
  match getLabelFromLine ln.text with
  | some (l, assign, cuda) =>
    let internal := isInternalLabel l
    ({ p with
        st := { p.st with
          inNvccDef := p.st.inNvccDef || cuda
          inNvccCode := p.st.inNvccCode || cuda
          previousLabel := ⟨l, some ln.id⟩
          previousParentLabel := if !internal then ⟨l, some ln.id⟩ else p.st.previousParentLabel }
        labelsDefined := assocSet l (p.lines.length + 1) p.labelsDefined
        stored := some ln.id :: p.stored },
      { ln with label := l, isLabel := true, isInternalLabel := internal, isAssignment := assign })
  | none => (p, { ln with isLabel := false, isInternalLabel := false })

/-! ### `eol` -/

/-- `state.text.clear(); return;` -/
def TParser.clear (p : TParser) : TParser := { p with st := { p.st with text := [] } }

/-- `maybeAddBlank`, src/assembly/parser.cpp:119-124; `id` is the allocation number of the new line. -/
def TParser.maybeAddBlank (p : TParser) (id : Nat) : TParser :=
  match p.lines.getLast? with
  | none => p
  | some l => if l.text.isEmpty then p else { p with lines := p.lines ++ [{ id }] }

/-- `isEmptyOrJustWhitespace`, src/assembly/parser.cpp:126-138. -/
def isEmptyOrJustWhitespace (line : Str) : Bool := line.all isWhitespace

/-- src/assembly/parser.cpp:487-518: the line is kept. -/
def TParser.eolFinish (L : Locale) (p : TParser) (ln : TLine) : TParser :=
  let ln := { ln with
    isInlineAsm := decide (p.st.inCustomAssembly > 0)
    hasOpcode := hasOpcode ln.text p.st.inNvccCode
    labels := [] }
  let r := if !ln.isLabel && ln.hasOpcode then p.extractUsedLabelsFromOpcodeLine L ln else (p, ln)
  let r := if !r.2.isLabel && r.2.isData then r.1.extractUsedLabelsFromDataLine L r.2 else r
  let p := r.1
  let ln := r.2
  let ln := { ln with
    closestParentLabel :=
      if ln.isAssignment || ln.label == p.st.previousParentLabel.s then []
      else p.st.previousParentLabel.s
    source := p.st.currentSourceRef
    sect := p.st.currentSection }
  let p := p.handleLabelAliasing ln
  { p with lines := p.lines ++ [ln], stored := p.st.previousParentLabel.own :: p.stored }.clear

/-- src/assembly/parser.cpp:461-485: directives. -/
def TParser.eolDirective (L : Locale) (p : TParser) (ln : TLine) (handled : Bool) : TParser :=
  if p.st.inNvccDef then
    (if isCudaEndDef ln.text then { p with st := { p.st with inNvccDef := false } } else p).eolFinish L ln
  else if !ln.isLabel && !ln.isData then
    let ln := if handled then ln else { ln with isDirective := isDirective ln.text }
    if ln.isDirective && !isInstOpcode ln.text then
      let p := p.extractUsedLabelsFromDirective ln.id ln.text
      if p.filter.directives then
        { p with st := { p.st with filteredLines := p.st.filteredLines ++ [ln] } }.clear
      else p.eolFinish L ln
    else p.eolFinish L ln
  else p.eolFinish L ln

/-- src/assembly/parser.cpp:446-459: labels and data. -/
def TParser.eolLabel (L : Locale) (p : TParser) (ln : TLine) (handled : Bool) : TParser :=
  if handled then
    p.eolDirective L { ln with isData := false, isDirective := true, isLabel := false,
                               isInternalLabel := false } handled
  else
    let r := p.handleLabelDefinition ln
    r.1.eolDirective L { r.2 with isData := isDataDefn ln.text, isDirective := false } handled

/-- src/assembly/parser.cpp:439-444: lines that are just a comment. -/
def TParser.eolComment (L : Locale) (p : TParser) (ln : TLine) (raw : Str) (handled : Bool) : TParser :=
  if p.filter.commentOnly && ((isJustComments raw && !p.st.inNvccCode)
      || (isJustNvccComments raw && p.st.inNvccCode)) then p.clear
  else p.eolLabel L ln handled

/-- src/assembly/parser.cpp:404-425 -/
def TParser.maybeRemovePrevious (p : TParser) : TParser :=
  if p.st.mayRemovePreviousLabel then
    match p.lines.getLast? with
    | none => p
    | some l =>
      if l.text.isEmpty then
        { p with st := { p.st with keepInlineCode := true, mayRemovePreviousLabel := false } }
      else if l.isLabel then
        { p with lines := p.lines.dropLast,
                 st := { p.st with keepInlineCode := false, mayRemovePreviousLabel := false } }
      else { p with st := { p.st with keepInlineCode := true, mayRemovePreviousLabel := false } }
  else p

/-- src/assembly/parser.cpp:402-436: library functions. -/
def TParser.eolLibrary (L : Locale) (p : TParser) (ln : TLine) (raw : Str) (handled : Bool) : TParser :=
  if p.filter.libraryFunctions && p.st.lastOwnSourceLine == 0 && p.st.currentFilename.isEmpty then
    let p := p.maybeRemovePrevious
    if !p.st.keepInlineCode then p.clear else p.eolComment L ln raw handled
  else { p with st := { p.st with mayRemovePreviousLabel := true } }.eolComment L ln raw handled

/-- src/assembly/parser.cpp:379-397: the source directives, tried in order.  The result says whether the
line was one of them. -/
def TParser.handleSourceDirectives (p : TParser) (ln : TLine) : TParser × Bool :=
  if endBlock ln.text || (p.st.inNvccCode && ln.text.contains c! '}') then
    ({ p with st := { p.st with currentSourceRef := {}, previousLabel := {}, lastOwnSourceLine := 0 } },
     false)
  else
    match p.handleFiledef ln.text with
    | some p => (p, true)
    | none =>
      match p.handleSource ln.text with
      | some p => (p, true)
      | none =>
        match p.handleStabs ln.text with
        | some p => (p, true)
        | none =>
          match p.handle6502 ln.id ln.text with
          | some p => (p, true)
          | none =>
            match p.handleD2 ln.id ln.text with
            | some p => (p, true)
            | none => (p, false)

/-- src/assembly/parser.cpp:377-400. -/
def TParser.eolSource (L : Locale) (p : TParser) (ln : TLine) (raw : Str) : TParser :=
  let r := p.handleSourceDirectives ln
  (if !r.2 then r.1.handleSection ln.id ln.text else r.1).eolLibrary L ln raw r.2

/-- src/assembly/parser.cpp:350-365: the text stored for a line. -/
def lineText (filter : Filter) (inCustomAssembly : Int) (raw : Str) : Str :=
  let t := if inCustomAssembly > 0 then fixLabelIndentation raw else raw
  let t := expandTabs t
  if filter.whitespace then squashHorizontalWhitespaceWithQuotes t true else t

/-- src/assembly/parser.cpp:341-348: nesting of custom assembly. -/
def nesting (n : Int) (raw : Str) : Int :=
  if startAppBlock raw || startAsmNesting raw then n + 1
  else if endAppBlock raw || endAsmNesting raw then n - 1
  else n

/-- src/assembly/parser.cpp:341-375. -/
def TParser.eolBody (L : Locale) (p : TParser) (id : Nat) : TParser :=
  let raw := p.st.text
  let p := { p with st := { p.st with inCustomAssembly := nesting p.st.inCustomAssembly raw } }
  let ln : TLine := { id, text := lineText p.filter p.st.inCustomAssembly raw }
  if startProcBlock ln.text && p.st.currentSourceRef.line == 0 then
    let p := p.markPreviousInternalLabelAsInsideProc
    if p.filter.directives then p.clear else p.eolSource L ln raw
  else p.eolSource L ln raw

/-- `eol`, src/assembly/parser.cpp:297-519. -/
def TParser.eol (L : Locale) (p : TParser) : TParser :=
  let id := p.nextId
  let p := { p with totalLines := p.totalLines + 1, nextId := p.nextId + 2 }
  let raw := p.st.text
  if p.filter.commentOnly && (p.st.hasStartedCommentBlock || startCommentBlock raw) then
    { p with st := { p.st with hasStartedCommentBlock := !endCommentBlock raw } }.clear
  else if isEmptyOrJustWhitespace raw then p.maybeAddBlank (id + 1)
  else p.eolBody L id

/-! ### After the last line -/

/-- Which hash container is being iterated over. -/
inductive OrdKey where
  | labels | used (k : Str) | weak (k : Str) | data (k : Str)
deriving Repr, DecidableEq

/-- An iteration order for every hash container. -/
structure Order where
  run : OrdKey → List Str → List Str
  perm : ∀ k l, (run k l).Perm l

/-- Insertion order. -/
def Order.id : Order := ⟨fun _ l => l, fun _ _ => .refl _⟩
/-- Reverse insertion order. -/
def Order.rev : Order := ⟨fun _ l => l.reverse, fun _ l => l.reverse_perm⟩

/-- The entries of `map.find(k)->second`, none if the key is absent. -/
def refsOf (m : List (Str × List Str)) (k : Str) : List Str := (m.lookup k).getD []

/-- `for (ref : refs) if (q(ref)) return true;`, threading the `visited` set. -/
def anyRef (q : Str → List Str → Option (Bool × List Str)) :
    List Str → List Str → Option (Bool × List Str)
  | [], vis => some (false, vis)
  | r :: rs, vis =>
    match q r vis with
    | none => none
    | some (true, vis) => some (true, vis)
    | some (false, vis) => anyRef q rs vis

/-- `isUsed`, src/assembly/parser.cpp:599-656.  `visited` is the `thread_local` set, which outlives the
call: it is passed in and returned.  `fuel` bounds the recursion depth; `none` means it ran out, so the
C++ recursion is infinite iff the result is `none` for every fuel. -/
def isUsed (g : Usage) (o : Order) : Nat → Str → Nat → List Str → Option (Bool × List Str)
  | 0, _, _, _ => none
  | fuel + 1, label, depth, vis =>
    let vis := if depth = 0 then [] else vis
    if vis.contains label then some (false, vis)
    else
      let vis := label :: vis
      if g.usercode.contains label then some (true, vis)
      else
        match anyRef (fun ref vis => if ref.isEmpty then some (true, vis)
            else isUsed g o fuel ref (depth + 1) vis) (o.run (.used label) (refsOf g.used label)) vis with
        | none => none
        | some (true, vis) => some (true, vis)
        | some (false, vis) =>
          if depth > 0 then
            match anyRef (fun ref vis => isUsed g o fuel ref (depth - 1) vis)
                (o.run (.weak label) (refsOf g.weaklyUsed label)) vis with
            | none => none
            | some (true, vis) => some (true, vis)
            | some (false, vis) =>
              match anyRef (fun ref vis => isUsed g o fuel ref (depth - 1) vis)
                  (o.run (.data label) (refsOf g.dataUsed label)) vis with
              | none => none
              | some (true, vis) => some (true, vis)
              | some (false, vis) => some (false, vis.filter (· != label))
          else some (false, vis.filter (· != label))

/-- `isUsedThroughAlias`, src/assembly/parser.cpp:588-597. -/
def isUsedThroughAlias (g : Usage) (o : Order) (fuel : Nat) (label : Str) (vis : List Str) :
    Option (Bool × List Str) :=
  match g.aliased.lookup label with
  | some a => isUsed g o fuel a 1 vis
  | none => some (false, vis)

/-- `isDataUsedThroughAlias`, src/assembly/parser.cpp:658-672. -/
def isDataUsedThroughAlias (g : Usage) (o : Order) (fuel : Nat) (label : Str) (vis : List Str) :
    Option (Bool × List Str) :=
  anyRef (isUsedThroughAlias g o fuel) (o.run (.data label) (refsOf g.dataUsed label)) vis

/-- `filterNonLabels`, src/assembly/parser.cpp:674-687. -/
def TParser.filterNonLabels (p : TParser) : TParser :=
  let keep := fun (e : Str × List Str) => (p.labelsDefined.lookup e.1).isSome
  { p with usage := { p.usage with
      used := p.usage.used.filter keep, weaklyUsed := p.usage.weaklyUsed.filter keep } }

/-- The body of the loop of `markLabelUsage` for one label, src/assembly/parser.cpp:694-705: the line
with its flags. -/
def markLine (g : Usage) (o : Order) (fuel : Nat) (line : TLine) (vis : List Str) :
    Option (TLine × List Str) :=
  match isUsed g o fuel line.label 1 vis with
  | none => none
  | some (true, vis) => some ({ line with isUsed := true }, vis)
  | some (false, vis) =>
    match isDataUsedThroughAlias g o fuel line.label vis with
    | none => none
    | some (true, vis) => some ({ line with isUsedDataThroughAlias := true }, vis)
    | some (false, vis) =>
      match isUsedThroughAlias g o fuel line.label vis with
      | none => none
      | some (true, vis) => some ({ line with isUsedThroughAlias := true }, vis)
      | some (false, vis) => some (line, vis)

/-- The loop of `markLabelUsage`, src/assembly/parser.cpp:689-707, over the labels in iteration order.
`lines[i]` out of bounds is undefined behaviour. -/
def TParser.markLoop (o : Order) (fuel : Nat) :
    List Str → TParser → List Str → Option (TParser × List Str)
  | [], p, vis => some (p, vis)
  | l :: ls, p, vis =>
    let idx := (p.labelsDefined.lookup l).getD 0 - 1
    match p.lines[idx]? with
    | none => TParser.markLoop o fuel ls { p with ub := true } vis
    | some line =>
      match markLine p.usage o fuel line vis with
      | none => none
      | some (line', vis) => TParser.markLoop o fuel ls { p with lines := p.lines.set idx line' } vis

/-- `markLabelUsage`, src/assembly/parser.cpp:689-707. -/
def TParser.markLabelUsage (o : Order) (fuel : Nat) (p : TParser) (vis : List Str) :
    Option (TParser × List Str) :=
  p.markLoop o fuel (o.run .labels (p.labelsDefined.map (·.1))) vis

/-- The variables of `removeUnused` that live across iterations, src/assembly/parser.cpp:711-715. -/
structure RemState where
  remove : Bool := false
  isUsed : Bool := false
  isUsedThroughAlias : Bool := false
  isDataUsedThroughAlias : Bool := false
deriving Repr, DecidableEq

/-- The label part of one iteration, src/assembly/parser.cpp:720-765: the new variables and
`removeOnlyThis`. -/
def remLabel (filter : Filter) (g : Usage) (r : RemState) (l : TLine) : RemState × Bool :=
  if l.isLabel then
    let r := { r with isUsed := l.isUsed, isUsedThroughAlias := l.isUsedThroughAlias,
                      isDataUsedThroughAlias := l.isUsedDataThroughAlias }
    if filter.unusedLabels then
      if r.remove && r.isUsed then ({ r with remove := false }, false)
      else if !r.remove && !r.isUsed then
        if r.isUsedThroughAlias then (r, true)
        else if r.isDataUsedThroughAlias then (r, false)
        else if l.isInternalLabel then (r, true)
        else if l.isInlineAsm then (r, true)
        else if !l.closestParentLabel.isEmpty then
          let remove := !(g.used.lookup l.closestParentLabel).isSome
          ({ r with remove }, !remove && l.isInternalLabel)
        else ({ r with remove := true }, false)
      else (r, false)
    else (r, false)
  else (r, false)

/-- Is the line dropped?  src/assembly/parser.cpp:767-769. -/
def remDrop (filter : Filter) (r : RemState) (removeOnlyThis : Bool) (l : TLine) : Bool :=
  r.remove || removeOnlyThis ||
    (!r.isUsed && !r.isUsedThroughAlias && !r.isDataUsedThroughAlias && filter.compatmode &&
      filter.directives && l.isData && !l.source.insideProc)

/-- `filterOutReferedLabelsThatArentDefined` and the file lookup of a kept line,
src/assembly/parser.cpp:572-586, 777-800. -/
def TParser.finishKept (p : TParser) (l : TLine) : TLine :=
  let l : TLine := { l with labels := l.labels.filter fun r => (p.labelsDefined.lookup r.name).isSome }
  if l.source.fileIdx ≠ 0 then
    match p.files.lookup l.source.fileIdx with
    | some f =>
      { l with source := { l.source with
          file := ⟨f, none⟩, isUsercode := l.source.isUsercode || isExampleOrStdin f } }
    | none => { l with source := {} }
  else l

/-- The loop of `removeUnused`, src/assembly/parser.cpp:717-804: kept lines and dropped lines. -/
def TParser.removeLoop (p : TParser) : RemState → List TLine → List TLine × List TLine
  | _, [] => ([], [])
  | r, l :: ls =>
    let x := remLabel p.filter p.usage r l
    let rest := p.removeLoop x.1 ls
    if remDrop p.filter x.1 x.2 l then (rest.1, l :: rest.2) else (p.finishKept l :: rest.1, rest.2)

/-- `removeUnused`, src/assembly/parser.cpp:709-805. -/
def TParser.removeUnused (p : TParser) : TParser :=
  let r := p.removeLoop {} p.lines
  { p with lines := r.1, st := { p.st with filteredLines := p.st.filteredLines ++ r.2 } }

/-- Body of the loop of `fromStream`, src/assembly/parser.cpp:814-827.  A CR is *not* skipped: the empty
branch falls through to `state.text += c`. -/
def TParser.feed (L : Locale) (p : TParser) (c : Byte) : TParser :=
  if c == 10 then p.eol L else { p with st := { p.st with text := p.st.text ++ [c] } }

/-- `fromStream` up to and including the flush of the last line, src/assembly/parser.cpp:807-833. -/
def TParser.readStream (L : Locale) (p : TParser) (input : Str) : TParser :=
  let p := input.foldl (TParser.feed L) { p with totalLines := 0 }
  if !p.st.text.isEmpty then p.eol L else p

/-- `fromStream`, src/assembly/parser.cpp:807-838.  `vis` is the thread-local `visited` set of `isUsed`
at the start (empty in a fresh thread). -/
def TParser.fromStream (L : Locale) (o : Order) (fuel : Nat) (p : TParser) (input : Str)
    (vis : List Str) : Option (TParser × List Str) :=
  match (p.readStream L input).filterNonLabels.markLabelUsage o fuel vis with
  | none => none
  | some (p, vis) => some (p.removeUnused, vis)

/-! ### Output -/

/-- `redetermineLabels`, src/assembly/parser.cpp:840-857. -/
def redetermineLabels : Nat → List TLine → List LabelPair
  | _, [] => []
  | n, l :: ls => if l.isLabel then (l.label, n) :: redetermineLabels (n + 1) ls else redetermineLabels (n + 1) ls

/-- `outputText`, src/assembly/parser.cpp:876-882. -/
def TParser.outputText (p : TParser) : Str := p.lines.flatMap fun l => l.text ++ [10]

/-- The contents of a line, as the writer sees them if all its views are live. -/
def TLine.toAsm (l : TLine) : AsmLine :=
  { text := l.text, sect := l.sect.s, labels := l.labels, closestParentLabel := l.closestParentLabel,
    isLabel := l.isLabel, isInternalLabel := l.isInternalLabel, label := l.label,
    source := { file := l.source.file.s, fileIdx := l.source.fileIdx, line := l.source.line,
                column := l.source.column, isUsercode := l.source.isUsercode,
                insideProc := l.source.insideProc },
    isUsed := l.isUsed, isUsedThroughAlias := l.isUsedThroughAlias,
    isUsedDataThroughAlias := l.isUsedDataThroughAlias, isData := l.isData,
    isInlineAsm := l.isInlineAsm, hasOpcode := l.hasOpcode, isDirective := l.isDirective,
    isAssignment := l.isAssignment }

/-- The document `outputJson` hands to `JsonWriter`, src/assembly/parser.cpp:868-874.  The `reproducible`
flag is *not* passed on: the constructor used defaults it to `false` (src/utils/jsonwriter.cpp:7-20). -/
def TParser.jsonDoc (p : TParser) (time : Int) : JsonDoc :=
  { filter := p.filter, lines := p.lines.map TLine.toAsm, labels := redetermineLabels 1 p.lines,
    originalLineCount := p.totalLines, reproducible := false, time }

/-- `outputJson`, src/assembly/parser.cpp:868-874 (meaningful if `outputJsonUB` is false). -/
def TParser.outputJson (p : TParser) (time : Int) : Str := (p.jsonDoc time).write

/-- Does writing this line as JSON read the characters of a dangling view?  `writeLine` reads the section
if it is written (jsonwriter.cpp:290-295); `writeSource` reads the file name of a non-empty view
(jsonwriter.cpp:177-209). -/
def TParser.lineJsonUB (p : TParser) (l : TLine) : Bool :=
  (!l.sect.s.isEmpty && !p.filter.compatmode && !p.live l.id l.sect.own)
  || ((!l.isLabel || l.hasOpcode) && decide (l.source.line > 0) && !l.source.file.s.isEmpty
      && !p.live l.id l.source.file.own)

def TParser.outputJsonUB (p : TParser) : Bool := p.lines.any p.lineJsonUB

end AsmParser
