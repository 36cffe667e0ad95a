/-
Helper lemmas: documents with control characters in their strings are no JSON.
-/
import Verif.Proofs.JsonLex
import Verif.Proofs.DebugJson
import Verif.Proofs.JsonPretty

namespace AsmParser

theorem LexPiece.null : LexPiece True b! "null" := .lit (by decide)

theorem LexPiece.empty : LexPiece True [] := .lit rfl

theorem hasPosition_eq (l : AsmLine) : ((!l.isLabel || l.hasOpcode) && decide (l.source.line > 0)) = decide (HasPosition l) := by
  rw [Bool.eq_iff_iff, decide_eq_true_iff]
  unfold HasPosition
  cases l.isLabel <;> cases l.hasOpcode <;> simp

theorem mainFlag_ok (b : Bool) : NoControl (if b then b! "true" else b! "false") := by cases b <;> decide

theorem LexPiece.flag (b : Bool) : LexPiece True (flagValue b) := (LexPiece.str _).congr (iff_true_intro (mainFlag_ok b))

/-- The file of a line can be written. -/
def FileOk (f : Filter) (l : AsmLine) : Prop :=
  ∀ s, HasPosition l → shownFile (!f.dontMaskFilenames) l.source.file = some s → NoControl s

theorem LexPiece.source (f : Filter) (l : AsmLine) (num : Int → Str) (hn : ∀ z, LexPiece True (num z)) : LexPiece (FileOk f l) (writeSource f l num) := by
  unfold writeSource
  rw [hasPosition_eq]
  by_cases hp : HasPosition l
  · simp only [hp, decide_true, if_true]
    have hcol : LexPiece True (if l.source.column ≠ 0 then keyName b! "column" ++ num l.source.column ++ commaSp else []) := by
      split
      · exact (((LexPiece.lit (by decide)).append (hn _)).append (.lit (by decide))).congr (by simp)
      · exact .empty
    have hfile : LexPiece (FileOk f l) (match sourceFileField f l.source.file with
        | none => keyName b! "file" ++ b! "null" ++ commaSp
        | some f => keyNameEsc b! "file" ++ strValue f ++ commaSp) := by
      rw [sourceFileField_eq]
      split
      · rename_i h
        exact (LexPiece.lit (by decide)).congr (by simp [FileOk, h])
      · rename_i s h
        exact (((LexPiece.lit (by decide)).append (.str s)).append (.lit (by decide))).congr (by simp [FileOk, h, hp])
    exact (((((((((LexPiece.lit (w := b! "{") (by decide)).append hcol).append hfile).append (.lit (by decide))).append (.str _)).append
      (.lit (by decide))).append (.lit (by decide))).append (hn _)).append (.lit (by decide))).congr (by simp [mainFlag_ok])
  · simp only [hp, decide_false, Bool.false_eq_true, if_false]
    exact LexPiece.null.congr (by simp [FileOk, hp])

theorem LexPiece.ref (r : AsmLabel) (num : Int → Str) (hn : ∀ z, LexPiece True (num z)) : LexPiece (NoControl r.name) (writeLabelRef r num) := by
  unfold writeLabelRef
  exact ((((((((((((LexPiece.lit (w := b! "{") (by decide)).append (.lit (by decide))).append (.str _)).append (.lit (by decide))).append
    (.lit (by decide))).append (.lit (by decide))).append (.lit (by decide))).append (hn _)).append (.lit (by decide))).append
    (.lit (by decide))).append (hn _)).append (.lit (by decide)) |>.append (.lit (by decide))).congr (by simp)

theorem LexPiece.opcodes {l : AsmLine} (h : ∀ o ∈ l.opcodes, ∀ c ∈ o, c ≠ 34 ∧ c ≠ 92) :
    LexPiece (∀ o ∈ l.opcodes, ∀ c ∈ o, 32 ≤ c)
      (if l.opcodes.length > 0 then commaSp ++ keyName b! "opcodes" ++ writeOpcodesArray l else []) := by
  split
  · unfold writeOpcodesArray
    exact (((LexPiece.lit (w := commaSp) (by decide)).append (.lit (by decide))).append (((LexPiece.lit (by decide)).append
      (.sep (by decide) _ _ l.opcodes fun o ho => .raw (h o ho))).append (.lit (by decide)))).congr (by simp)
  · rename_i h0
    exact LexPiece.empty.congr (by simp [List.eq_nil_of_length_eq_zero (by omega : l.opcodes.length = 0)])

theorem LexPiece.line (f : Filter) {l : AsmLine} (h : ∀ o ∈ l.opcodes, ∀ c ∈ o, c ≠ 34 ∧ c ≠ 92) :
    LexPiece (LineWritable f l) (writeLine f l) := by
  unfold writeLine writeLabelArray
  have haddr : LexPiece True (match l.address with
      | some a => if !(l.isLabel && f.compatmode) then commaSp ++ keyName b! "address" ++ intToDec a else []
      | none => []) := by
    split
    · split
      · exact ((LexPiece.lit (by decide)).append (.num _)).congr (by simp)
      · exact .empty
    · exact .empty
  have hsect : LexPiece (f.compatmode = false → NoControl l.sect)
      (if !l.sect.isEmpty && !f.compatmode then commaSp ++ keyNameEsc b! "section" ++ strValue l.sect else []) := by
    split
    · rename_i hc
      simp only [Bool.and_eq_true, Bool.not_eq_true'] at hc
      exact ((LexPiece.lit (by decide)).append (.str _)).congr (by simp [hc.2])
    · rename_i hc
      refine LexPiece.empty.congr ⟨fun _ hf => ?_, fun _ => trivial⟩
      rw [hf] at hc
      have : l.sect = [] := by simpa using hc
      rw [this]
      intro c hc
      cases hc
  exact ((((((((((((LexPiece.lit (w := b! "{") (by decide)).append (.lit (by decide))).append
    (((LexPiece.lit (by decide)).append (.sep (by decide) _ _ l.labels fun r _ => LexPiece.ref r intToDec .num)).append (.lit (by decide)))).append
    (LexPiece.opcodes h)).append haddr).append (.lit (by decide))).append (.lit (by decide))).append (LexPiece.source f l intToDec .num)).append
    hsect).append (.lit (by decide))).append (.lit (by decide))).append (.str _) |>.append (.lit (by decide))).congr
    (by
      simp only [true_and, and_true]
      exact ⟨fun ⟨⟨⟨⟨h1, h2⟩, h3⟩, h4⟩, h5⟩ => ⟨h5, h4, h3, h1, h2⟩, fun h => ⟨⟨⟨⟨h.refs, h.opcodes⟩, h.file⟩, h.sect⟩, h.text⟩⟩)

theorem LexPiece.labels (ds : List LabelPair) (num : Int → Str) (hn : ∀ z, LexPiece True (num z)) :
    LexPiece (∀ d ∈ ds, NoControl d.1) (sepBy commaSp (ds.map fun d => writeLabelDef d num)) :=
  .sep (by decide) _ _ ds fun d _ => ((LexPiece.key d.1).append (hn _)).congr (by simp)

theorem LexPiece.document (d : JsonDoc) (h : ∀ l ∈ d.lines, ∀ o ∈ l.opcodes, ∀ c ∈ o, c ≠ 34 ∧ c ≠ 92) : LexPiece (DocWritable d) d.write := by
  unfold JsonDoc.write
  have ht : LexPiece True (if d.reproducible then [] else commaSp ++ keyName b! "parsingTime" ++ intToDec d.time) := by
    split
    · exact .empty
    · exact ((LexPiece.lit (by decide)).append (.num _)).congr (by simp)
  exact ((((((((((((LexPiece.lit (w := b! "{") (by decide)).append (.lit (by decide))).append (.lit (by decide))).append
    (.sep (by decide) _ _ d.lines fun l hl => LexPiece.line d.filter (h l hl))).append (.lit (by decide))).append (.lit (by decide))).append
    (.lit (by decide))).append (LexPiece.labels d.labels intToDec .num)).append (.lit (by decide))).append ht).append
    (.lit (by decide))).append (.lit (by decide)) |>.append (.num _) |>.append (.lit (by decide))).congr
    (by simp only [true_and, and_true, DocWritable, Writable])

/-! ### The debug dump -/

theorem LexPiece.debugLine (f : Filter) (l : AsmLine) (num : Int → Str) (hn : ∀ z, LexPiece True (num z)) :
    LexPiece (DebugWritable f l) (writeDebugLine f l num) := by
  unfold writeDebugLine debugFlags
  have haddr : LexPiece True (match l.address with
      | some a => num a
      | none => b! "null") := by
    split
    · exact hn _
    · exact .null
  have hf := fun (k : Str) (hk : lex .out (keyName k) = some .out) (b : Bool) =>
    (((LexPiece.lit hk).append (.flag b)).append (.lit (w := commaSp) (by decide))).congr (Q := True) (by simp)
  have h1 : LexPiece True (keyName b! "is_data" ++ flagValue l.isData ++ commaSp
      ++ keyName b! "is_used" ++ flagValue l.isUsed ++ commaSp
      ++ keyName b! "is_label" ++ flagValue l.isLabel ++ commaSp
      ++ keyName b! "is_internal_label" ++ flagValue l.isInternalLabel ++ commaSp
      ++ keyName b! "is_inline_asm" ++ flagValue l.isInlineAsm ++ commaSp) := by
    have := ((((hf b! "is_data" (by decide) l.isData).append (hf b! "is_used" (by decide) l.isUsed)).append
      (hf b! "is_label" (by decide) l.isLabel)).append (hf b! "is_internal_label" (by decide) l.isInternalLabel)).append
      (hf b! "is_inline_asm" (by decide) l.isInlineAsm)
    simp only [List.append_assoc, and_self] at this ⊢
    exact this
  have h2 : LexPiece True (keyName b! "has_opcode" ++ flagValue l.hasOpcode ++ commaSp
      ++ keyName b! "is_directive" ++ flagValue l.isDirective ++ commaSp
      ++ keyName b! "is_assignment" ++ flagValue l.isAssignment ++ commaSp) := by
    have := ((hf b! "has_opcode" (by decide) l.hasOpcode).append (hf b! "is_directive" (by decide) l.isDirective)).append
      (hf b! "is_assignment" (by decide) l.isAssignment)
    simp only [List.append_assoc, and_self] at this ⊢
    exact this
  have h3 : LexPiece (NoControl l.closestParentLabel ∧ NoControl l.sect)
      (keyName b! "closest_parent_label" ++ strValue l.closestParentLabel ++ commaSp ++ keyNameEsc b! "section" ++ strValue l.sect ++ commaSp) :=
    ((((((LexPiece.lit (by decide)).append (.str _)).append (.lit (by decide))).append (.lit (by decide))).append (.str _)).append (.lit (by decide))).congr (by simp)
  have h4 := (((((((((((LexPiece.lit (w := b! "{") (by decide)).append (.lit (w := keyName b! "text") (by decide))).append (.str l.text)).append
    (.lit (w := commaSp) (by decide))).append (.lit (w := keyName b! "address") (by decide))).append haddr).append (.lit (w := commaSp) (by decide))).append ((h1.append h3).append h2)).append
    (.lit (w := keyName b! "source") (by decide))).append (LexPiece.source f l num hn)).append (.lit (w := b! ",\n") (by decide))).append
    ((((LexPiece.lit (w := keyName b! "labels") (by decide)).append (.lit (w := b! "[") (by decide))).append
      (.sep (w := b! ",") (by decide) _ _ l.labels fun r _ => LexPiece.ref r num hn)).append (.lit (w := b! "]") (by decide)) |>.append (.lit (w := b! "}") (by decide)))
  have h5 := h4.congr (Q := DebugWritable f l) (by
    simp only [true_and, and_true]
    exact ⟨fun ⟨⟨⟨h1, h2, h3⟩, h4⟩, h5⟩ => ⟨h1, h3, h2, h4, h5⟩, fun h => ⟨⟨⟨h.text, h.parent, h.sect⟩, h.file⟩, h.refs⟩⟩)
  simp only [List.append_assoc] at h5 ⊢
  exact h5

theorem LexPiece.refs (e : Str × List Str) : LexPiece (NoControl e.1 ∧ ∀ r ∈ e.2, NoControl r) (writeRefs e) :=
  ((LexPiece.key e.1).append (((LexPiece.lit (w := b! "[") (by decide)).append (.sep (by decide) _ _ e.2 fun r _ => .str r)).append
    (.lit (by decide)))).congr (by simp)

theorem LexPiece.dump (d : DebugDoc) (num : Int → Str) (hn : ∀ z, LexPiece True (num z)) : LexPiece (DumpWritable d) (d.write num) := by
  have h := (((((((LexPiece.lit (w := b! "{" ++ keyName b! "asm" ++ b! "[") (by decide)).append
    (.sep (w := b! ",") (by decide) _ _ d.lines fun l _ => LexPiece.debugLine d.filter l num hn)).append
    (.lit (w := b! "]," ++ keyName b! "labelDefinitions" ++ b! "{") (by decide))).append (LexPiece.labels d.labels num hn)).append
    (.lit (w := b! "}" ++ b! ",\n" ++ keyName b! "used_labels" ++ b! "[") (by decide))).append
    (.sep (w := b! ",") (by decide) (fun e => b! "{" ++ writeRefs e ++ b! "}") (fun e => NoControl e.1 ∧ ∀ r ∈ e.2, NoControl r) d.used fun e _ =>
      (((LexPiece.lit (by decide)).append (LexPiece.refs e)).append (.lit (by decide))).congr (by simp))).append
    (.lit (w := b! "]" ++ b! ",\n" ++ keyName b! "used_weak_labels" ++ b! "{") (by decide))).append
    (.sep (w := b! ",") (by decide) writeRefs _ d.weaklyUsed fun e _ => LexPiece.refs e) |>.append
    (.lit (w := b! "}" ++ b! ",\n" ++ keyName b! "used_data_labels" ++ b! "{") (by decide)) |>.append
    (.sep (w := b! ",") (by decide) writeRefs _ d.dataUsed fun e _ => LexPiece.refs e) |>.append
    (.lit (w := b! "}" ++ b! ",\n" ++ keyName b! "aliased_labels" ++ b! "{") (by decide)) |>.append
    (.sep (w := commaSp) (by decide) (fun e : Str × Str => keyNameEsc e.1 ++ strValue e.2) _ d.aliased fun e _ => (LexPiece.key e.1).append (.str e.2)) |>.append
    (.lit (w := b! "}" ++ b! "}") (by decide))
  have h5 := h.congr (Q := DumpWritable d) (by
    simp only [true_and, and_true]
    exact ⟨fun ⟨⟨⟨⟨⟨h1, h2⟩, h3⟩, h4⟩, h5⟩, h6⟩ => ⟨h1, h2, h3, h4, h5, h6⟩,
      fun h => ⟨⟨⟨⟨⟨h.lines, h.labels⟩, h.used⟩, h.weak⟩, h.data⟩, h.aliased⟩⟩)
  unfold DebugDoc.write
  simp only [List.append_assoc] at h5 ⊢
  exact h5

/-! ### Pretty printing -/

theorem LexPiece.prettySource (f : Filter) (l : AsmLine) : LexPiece (FileOk f l) (prettySource f l) := by
  unfold AsmParser.prettySource
  rw [hasPosition_eq]
  by_cases hp : HasPosition l
  · simp only [hp, decide_true, if_true]
    have hcol : LexPiece True (if l.source.column ≠ 0 then keyName b! "column" ++ intToDec l.source.column ++ commaSp ++ nl else []) := by
      split
      · exact ((((LexPiece.lit (by decide)).append (.num _)).append (.lit (by decide))).append (.lit (by decide))).congr (by simp)
      · exact .empty
    have hfile : LexPiece (FileOk f l) (match sourceFileField f l.source.file with
        | none => keyName b! "file" ++ b! "null" ++ commaSp ++ nl
        | some f => keyNameEsc b! "file" ++ strValue f ++ commaSp ++ nl) := by
      rw [sourceFileField_eq]
      split
      · rename_i h
        exact (LexPiece.lit (by decide)).congr (by simp [FileOk, h])
      · rename_i s h
        exact ((((LexPiece.lit (by decide)).append (.str s)).append (.lit (by decide))).append (.lit (by decide))).congr (by simp [FileOk, h, hp])
    exact (((((((((((LexPiece.lit (w := b! "{") (by decide)).append hcol).append hfile).append (.lit (by decide))).append (.str _)).append
      (.lit (by decide))).append (.lit (by decide))).append (.lit (by decide))).append (.num _)).append (.lit (by decide))).append
      (.lit (by decide))).congr (by simp [mainFlag_ok])
  · simp only [hp, decide_false, Bool.false_eq_true, if_false]
    exact LexPiece.null.congr (by simp [FileOk, hp])

theorem LexPiece.prettyRef (r : AsmLabel) : LexPiece (NoControl r.name) (prettyLabelRef r) := by
  have h := (((((LexPiece.lit (w := b! "{" ++ keyNameEsc b! "name") (by decide)).append (.str r.name)).append
    (.lit (w := commaSp ++ nl ++ keyName b! "range" ++ b! "{" ++ keyName b! "startCol") (by decide))).append (.num r.startCol)).append
    (.lit (w := nl ++ commaSp ++ keyName b! "endCol") (by decide))).append (.num r.endCol) |>.append
    (.lit (w := nl ++ b! "}" ++ b! "}") (by decide))
  have h5 := h.congr (Q := NoControl r.name) (by simp only [true_and, and_true])
  unfold prettyLabelRef
  simp only [List.append_assoc] at h5 ⊢
  exact h5

theorem LexPiece.prettyLine (f : Filter) {l : AsmLine} (h : ∀ o ∈ l.opcodes, ∀ c ∈ o, c ≠ 34 ∧ c ≠ 92) :
    LexPiece (LineWritable f l) (prettyLine f l) := by
  have haddr : LexPiece True (match l.address with
      | some a => if !(l.isLabel && f.compatmode) then commaSp ++ keyName b! "address" ++ intToDec a ++ nl else []
      | none => []) := by
    split
    · split
      · exact (((LexPiece.lit (by decide)).append (.num _)).append (.lit (by decide))).congr (by simp)
      · exact .empty
    · exact .empty
  have hsect : LexPiece (f.compatmode = false → NoControl l.sect)
      (if !l.sect.isEmpty && !f.compatmode then commaSp ++ keyNameEsc b! "section" ++ strValue l.sect ++ nl else []) := by
    split
    · rename_i hc
      simp only [Bool.and_eq_true, Bool.not_eq_true'] at hc
      exact (((LexPiece.lit (by decide)).append (.str _)).append (.lit (by decide))).congr (by simp [hc.2])
    · rename_i hc
      refine LexPiece.empty.congr ⟨fun _ hf => ?_, fun _ => trivial⟩
      rw [hf] at hc
      have : l.sect = [] := by simpa using hc
      rw [this]
      intro c hc
      cases hc
  have h := (((((((LexPiece.lit (w := b! "{" ++ nl ++ keyName b! "labels" ++ b! "[") (by decide)).append
    (.sep (w := b! "," ++ nl) (by decide) _ _ l.labels fun r _ => LexPiece.prettyRef r)).append (.lit (w := b! "]") (by decide))).append
    (LexPiece.opcodes h)).append haddr).append (.lit (w := commaSp ++ keyName b! "source") (by decide))).append (LexPiece.prettySource f l)).append
    hsect |>.append (.lit (w := commaSp ++ keyName b! "text") (by decide)) |>.append (.str l.text) |>.append
    (.lit (w := nl ++ nl ++ b! "}") (by decide))
  have h5 := h.congr (Q := LineWritable f l) (by
      simp only [true_and, and_true]
      exact ⟨fun ⟨⟨⟨⟨h1, h2⟩, h3⟩, h4⟩, h5⟩ => ⟨h5, h4, h3, h1, h2⟩, fun h => ⟨⟨⟨⟨h.refs, h.opcodes⟩, h.file⟩, h.sect⟩, h.text⟩⟩)
  unfold AsmParser.prettyLine prettyLabelArray
  simp only [List.append_assoc] at h5 ⊢
  exact h5

theorem LexPiece.prettyLabels (ds : List LabelPair) : LexPiece (∀ d ∈ ds, NoControl d.1) (sepBy commaSp (ds.map prettyLabelDef)) :=
  .sep (by decide) _ _ ds fun d _ => (((LexPiece.key d.1).append (.num _)).append (.lit (by decide))).congr (by simp)

theorem LexPiece.prettyDocument (d : JsonDoc) (h : ∀ l ∈ d.lines, ∀ o ∈ l.opcodes, ∀ c ∈ o, c ≠ 34 ∧ c ≠ 92) :
    LexPiece (DocWritable d) d.writePretty := by
  have ht : LexPiece True (if d.reproducible then [] else commaSp ++ keyName b! "parsingTime" ++ intToDec d.time ++ nl) := by
    split
    · exact .empty
    · exact (((LexPiece.lit (by decide)).append (.num _)).append (.lit (by decide))).congr (by simp)
  have h := (((((LexPiece.lit (w := b! "{" ++ keyName b! "asm" ++ b! "[") (by decide)).append
    (.sep (w := b! "," ++ nl) (by decide) _ _ d.lines fun l hl => LexPiece.prettyLine d.filter (h l hl))).append
    (.lit (w := b! "]," ++ keyName b! "labelDefinitions" ++ b! "{" ++ nl) (by decide))).append (LexPiece.prettyLabels d.labels)).append
    (.lit (w := b! "}") (by decide))).append ht |>.append (.lit (w := commaSp ++ keyName b! "filteredCount") (by decide)) |>.append
    (.num d.filteredCount) |>.append (.lit (w := nl ++ b! "}" ++ nl) (by decide))
  have h5 := h.congr (Q := DocWritable d) (by simp only [true_and, and_true, DocWritable, Writable])
  unfold JsonDoc.writePretty
  simp only [List.append_assoc] at h5 ⊢
  exact h5

theorem LexPiece.prettyDebugLine (f : Filter) (l : AsmLine) : LexPiece (DebugWritable f l) (prettyDebugLine f l) := by
  have haddr : LexPiece True (match l.address with
      | some a => intToDec a
      | none => b! "null") := by
    split
    · exact .num _
    · exact .null
  have hf := fun (k : Str) (hk : lex .out (keyName k) = some .out) (b : Bool) =>
    ((((LexPiece.lit hk).append (.flag b)).append (.lit (w := commaSp) (by decide))).append (.lit (w := nl) (by decide))).congr (Q := True) (by simp)
  have h1 := ((((hf b! "is_data" (by decide) l.isData).append (hf b! "is_used" (by decide) l.isUsed)).append
      (hf b! "is_label" (by decide) l.isLabel)).append (hf b! "is_internal_label" (by decide) l.isInternalLabel)).append
      (hf b! "is_inline_asm" (by decide) l.isInlineAsm)
  have h2 := ((hf b! "has_opcode" (by decide) l.hasOpcode).append (hf b! "is_directive" (by decide) l.isDirective)).append
      (hf b! "is_assignment" (by decide) l.isAssignment)
  have h3 := (((LexPiece.lit (w := keyName b! "closest_parent_label") (by decide)).append (.str l.closestParentLabel)).append
    (.lit (w := commaSp ++ nl ++ keyNameEsc b! "section") (by decide))).append (.str l.sect) |>.append (.lit (w := commaSp ++ nl) (by decide))
  have h4 := ((((((LexPiece.lit (w := b! "{" ++ keyName b! "text") (by decide)).append (.str l.text)).append
    (.lit (w := commaSp ++ nl ++ keyName b! "address") (by decide))).append haddr).append (.lit (w := commaSp ++ nl) (by decide))).append
    ((h1.append h3).append h2)).append (.lit (w := keyName b! "source") (by decide)) |>.append (LexPiece.prettySource f l) |>.append
    (.lit (w := b! ",\n" ++ keyName b! "labels" ++ b! "[") (by decide)) |>.append
    (.sep (w := b! "," ++ nl) (by decide) _ _ l.labels fun r _ => LexPiece.prettyRef r) |>.append
    (.lit (w := b! "]" ++ nl ++ b! "}") (by decide))
  have h5 := h4.congr (Q := DebugWritable f l) (by
    simp only [true_and, and_true]
    exact ⟨fun ⟨⟨⟨h1, h2, h3⟩, h4⟩, h5⟩ => ⟨h1, h3, h2, h4, h5⟩, fun h => ⟨⟨⟨h.text, h.parent, h.sect⟩, h.file⟩, h.refs⟩⟩)
  unfold AsmParser.prettyDebugLine prettyFlags
  simp only [List.append_assoc] at h5 ⊢
  exact h5

theorem LexPiece.prettyRefs (e : Str × List Str) : LexPiece (NoControl e.1 ∧ ∀ r ∈ e.2, NoControl r) (prettyRefs e) :=
  ((LexPiece.key e.1).append (((LexPiece.lit (w := b! "[") (by decide)).append (.sep (by decide) _ NoControl e.2 fun r _ =>
    ((LexPiece.str r).append (.lit (w := nl) (by decide))).congr (by simp))).append (.lit (by decide)))).congr (by simp)

theorem LexPiece.prettyDump (d : DebugDoc) : LexPiece (DumpWritable d) d.writePretty := by
  have h := (((((((LexPiece.lit (w := b! "{" ++ keyName b! "asm" ++ b! "[") (by decide)).append
    (.sep (w := b! "," ++ nl) (by decide) _ _ d.lines fun l _ => LexPiece.prettyDebugLine d.filter l)).append
    (.lit (w := b! "]," ++ keyName b! "labelDefinitions" ++ b! "{" ++ nl) (by decide))).append (LexPiece.prettyLabels d.labels)).append
    (.lit (w := b! "}" ++ b! ",\n" ++ keyName b! "used_labels" ++ b! "[") (by decide))).append
    (.sep (w := b! ",") (by decide) (fun e => b! "{" ++ AsmParser.prettyRefs e ++ b! "}") (fun e => NoControl e.1 ∧ ∀ r ∈ e.2, NoControl r) d.used fun e _ =>
      (((LexPiece.lit (by decide)).append (LexPiece.prettyRefs e)).append (.lit (by decide))).congr (by simp))).append
    (.lit (w := b! "]" ++ b! ",\n" ++ keyName b! "used_weak_labels" ++ b! "{") (by decide))).append
    (.sep (w := b! ",") (by decide) AsmParser.prettyRefs _ d.weaklyUsed fun e _ => LexPiece.prettyRefs e) |>.append
    (.lit (w := b! "}" ++ b! ",\n" ++ keyName b! "used_data_labels" ++ b! "{") (by decide)) |>.append
    (.sep (w := b! ",") (by decide) AsmParser.prettyRefs _ d.dataUsed fun e _ => LexPiece.prettyRefs e) |>.append
    (.lit (w := b! "}" ++ b! ",\n" ++ keyName b! "aliased_labels" ++ b! "{") (by decide)) |>.append
    (.sep (w := commaSp) (by decide) (fun e : Str × Str => keyNameEsc e.1 ++ strValue e.2 ++ nl) (fun e => NoControl e.1 ∧ NoControl e.2) d.aliased
      fun e _ => (((LexPiece.key e.1).append (.str e.2)).append (.lit (by decide))).congr (by simp)) |>.append
    (.lit (w := b! "}" ++ b! "}" ++ nl) (by decide))
  have h5 := h.congr (Q := DumpWritable d) (by
    simp only [true_and, and_true]
    exact ⟨fun ⟨⟨⟨⟨⟨h1, h2⟩, h3⟩, h4⟩, h5⟩, h6⟩ => ⟨h1, h2, h3, h4, h5, h6⟩,
      fun h => ⟨⟨⟨⟨⟨h.lines, h.labels⟩, h.used⟩, h.weak⟩, h.data⟩, h.aliased⟩⟩)
  unfold DebugDoc.writePretty
  simp only [List.append_assoc] at h5 ⊢
  exact h5

end AsmParser
