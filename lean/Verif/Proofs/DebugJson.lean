/-
Reading the debug dump back.
-/
import Verif.Spec.DebugJson
import Verif.Proofs.Json

namespace AsmParser

theorem reads_flag (b : Bool) : Reads (flagJson b) (flagValue b) := by
  cases b <;> exact reads_escape (by decide)

theorem wsnl : ∀ c ∈ ([10] : Str), isJsonWs c = true := by decide

/-- The text of the address. -/
def addressText : Option Int → Str
  | some a => intToDec a
  | none => b! "null"

theorem reads_address (o : Option Int) : Reads (match o with | some a => .num a | none => .null) (addressText o) := by
  cases o with
  | none => exact reads_null
  | some a => exact reads_num a

theorem DebugPrintable.writable {l : AsmLine} (h : DebugPrintable l) (f : Filter) : DebugWritable f l where
  text := h.text
  sect := h.sect
  parent := h.parent
  file _ _ hs := shownFile_noControl h.file hs
  refs := h.refs

theorem reads_debugLine (f : Filter) {l : AsmLine} (h : DebugWritable f l) :
    Reads (debugLineJson (!f.dontMaskFilenames) l) (writeDebugLine f l) := by
  have hl : Reads (.arr (l.labels.map refJson)) (b! "[" ++ (sepBy b! "," (l.labels.map writeLabelRef) ++ b! "]")) :=
    reads_arr wsn refJson writeLabelRef l.labels (fun r hr => reads_ref (h.refs r hr))
  have t := ReadsTail.cons (k := b! "labels") (by decide) hl wsnl ReadsTail.nil
  have t := t.cons (k := b! "source") (by decide) (reads_source f l h.file) wsp
  have t := t.cons (k := b! "is_assignment") (by decide) (reads_flag l.isAssignment) wsp
  have t := t.cons (k := b! "is_directive") (by decide) (reads_flag l.isDirective) wsp
  have t := t.cons (k := b! "has_opcode") (by decide) (reads_flag l.hasOpcode) wsp
  have t := t.cons (k := b! "section") (by decide) (reads_escape h.sect) wsp
  have t := t.cons (k := b! "closest_parent_label") (by decide) (reads_escape h.parent) wsp
  have t := t.cons (k := b! "is_inline_asm") (by decide) (reads_flag l.isInlineAsm) wsp
  have t := t.cons (k := b! "is_internal_label") (by decide) (reads_flag l.isInternalLabel) wsp
  have t := t.cons (k := b! "is_label") (by decide) (reads_flag l.isLabel) wsp
  have t := t.cons (k := b! "is_used") (by decide) (reads_flag l.isUsed) wsp
  have t := t.cons (k := b! "is_data") (by decide) (reads_flag l.isData) wsp
  have t := t.cons (k := b! "address") (by decide) (reads_address l.address) wsp
  have := (t b! "text" _ _ (by decide) (reads_escape h.text)).obj
  unfold debugLineJson
  have e : writeDebugLine f l = b! "{" ++ keyName b! "text" ++ strValue l.text ++ commaSp
      ++ keyName b! "address" ++ addressText l.address ++ commaSp
      ++ debugFlags l
      ++ keyName b! "source" ++ writeSource f l ++ b! ",\n"
      ++ keyName b! "labels" ++ b! "[" ++ sepBy b! "," (l.labels.map writeLabelRef) ++ b! "]"
      ++ b! "}" := by
    unfold writeDebugLine addressText
    cases l.address <;> rfl
  rw [e]
  unfold debugFlags
  simp only [List.nil_append, List.append_assoc, List.append_nil, List.cons_append, commaSp,
    keyName_eq (k := b! "text") (by decide), keyName_eq (k := b! "address") (by decide),
    keyName_eq (k := b! "is_data") (by decide), keyName_eq (k := b! "is_used") (by decide),
    keyName_eq (k := b! "is_label") (by decide), keyName_eq (k := b! "is_internal_label") (by decide),
    keyName_eq (k := b! "is_inline_asm") (by decide), keyName_eq (k := b! "closest_parent_label") (by decide),
    keyName_eq (k := b! "has_opcode") (by decide), keyName_eq (k := b! "is_directive") (by decide),
    keyName_eq (k := b! "is_assignment") (by decide), keyName_eq (k := b! "source") (by decide),
    keyName_eq (k := b! "labels") (by decide)] at this ⊢
  exact this

theorem reads_refs {rs : List Str} (h : ∀ r ∈ rs, NoControl r) :
    Reads (refsJson rs) (b! "[" ++ sepBy commaSp (rs.map strValue) ++ b! "]") :=
  reads_arr wsp (α := Str) .str strValue rs fun r hr => reads_escape (h r hr)

theorem reads_table {m : List (Str × List Str)} (h : TablePrintable m) :
    Reads (.obj (m.map fun e => (e.1, refsJson e.2))) (b! "{" ++ (sepBy b! "," (m.map writeRefs) ++ b! "}")) :=
  reads_obj_sep wsn (fun e : Str × List Str => e.1) (fun e => refsJson e.2)
    (fun e => b! "[" ++ sepBy commaSp (e.2.map strValue) ++ b! "]") m (fun e he => (h e he).1) fun e he => reads_refs (h e he).2

theorem reads_debug (d : DebugDoc) (hl : ∀ l ∈ d.lines, DebugWritable d.filter l) (hd : ∀ e ∈ d.labels, NoControl e.1)
    (hu : TablePrintable d.used) (hw : TablePrintable d.weaklyUsed) (ht : TablePrintable d.dataUsed)
    (ha : ∀ e ∈ d.aliased, NoControl e.1 ∧ NoControl e.2) : Reads (debugJson d) d.write := by
  have halias := reads_obj_sep wsp (fun e : Str × Str => e.1) (fun e => .str e.2) (fun e => strValue e.2) d.aliased
    (fun e he => (ha e he).1) fun e he => reads_escape (ha e he).2
  have hused : Reads (.arr (d.used.map fun e => .obj [(e.1, refsJson e.2)]))
      (b! "[" ++ (sepBy b! "," (d.used.map fun e => b! "{" ++ writeRefs e ++ b! "}") ++ b! "]")) := by
    refine reads_arr wsn _ _ _ fun e he => ?_
    have := (ReadsTail.nil e.1 _ _ (hu e he).1 (reads_refs (hu e he).2)).obj
    simp only [List.append_nil, List.append_assoc, List.cons_append, List.nil_append, writeRefs] at this ⊢
    exact this
  have hlab := reads_obj_sep wsp (fun p : LabelPair => p.1) (fun p => .num p.2) (fun p => intToDec p.2) d.labels hd
    (fun p _ => reads_num p.2)
  have hasm := reads_arr wsn (debugLineJson (!d.filter.dontMaskFilenames)) (writeDebugLine d.filter) d.lines
    (fun l h => reads_debugLine d.filter (hl l h))
  have t := ReadsTail.cons (k := b! "aliased_labels") (by decide) halias wsnl ReadsTail.nil
  have t := t.cons (k := b! "used_data_labels") (by decide) (reads_table ht) wsnl
  have t := t.cons (k := b! "used_weak_labels") (by decide) (reads_table hw) wsnl
  have t := t.cons (k := b! "used_labels") (by decide) hused wsnl
  have t := t.cons (k := b! "labelDefinitions") (by decide) hlab wsn
  have := (t b! "asm" _ _ (by decide) hasm).obj
  unfold debugJson DebugDoc.write
  have e : d.labels.map writeLabelDef = d.labels.map fun p => keyNameEsc p.1 ++ intToDec p.2 := rfl
  rw [e]
  simp only [List.nil_append, List.append_assoc, List.append_nil, List.cons_append, commaSp,
    keyName_eq (k := b! "asm") (by decide), keyName_eq (k := b! "labelDefinitions") (by decide),
    keyName_eq (k := b! "used_labels") (by decide), keyName_eq (k := b! "used_weak_labels") (by decide),
    keyName_eq (k := b! "used_data_labels") (by decide), keyName_eq (k := b! "aliased_labels") (by decide)] at this ⊢
  exact this

theorem group3_short : ∀ s : Str, s.length ≤ 3 → group3 s = s
  | [], _ => rfl
  | [_], _ => rfl
  | [_, _], _ => rfl
  | [_, _, _], _ => rfl
  | _ :: _ :: _ :: _ :: _, h => by simp at h

theorem natToDec_short {n : Nat} (h : n < 1000) : (natToDec n).length ≤ 3 := by
  have : ∀ i : Fin 1000, (natToDec i).length ≤ 3 := by decide +kernel
  exact this ⟨n, h⟩

theorem groupDec_small {z : Int} (h : z.natAbs < 1000) : groupDec z = intToDec z := by
  unfold groupDec intToDec
  rw [group3_short _ (by rw [List.length_reverse]; exact natToDec_short h), List.reverse_reverse]
  split <;> rfl

theorem writeDebugLine_small (f : Filter) {l : AsmLine} (h : ShortNumbers l) : writeDebugLine f l groupDec = writeDebugLine f l := by
  have e1 : writeSource f l groupDec = writeSource f l := by
    unfold writeSource
    rw [groupDec_small h.line, groupDec_small h.column]
  have e2 : (l.labels.map fun r => writeLabelRef r groupDec) = l.labels.map fun r => writeLabelRef r := by
    refine List.map_congr_left fun r hr => ?_
    unfold writeLabelRef
    rw [groupDec_small (z := r.startCol) (by have := (h.refs r hr).1; omega), groupDec_small (z := r.endCol) (by have := (h.refs r hr).2; omega)]
  unfold writeDebugLine
  rw [e1, e2]
  cases ha : l.address with
  | none => rfl
  | some a => simp only [groupDec_small (h.address a ha)]

theorem write_small (d : DebugDoc) (hl : ∀ l ∈ d.lines, ShortNumbers l) (hd : ∀ e ∈ d.labels, e.2 < 1000) :
    d.write groupDec = d.write := by
  unfold DebugDoc.write
  rw [List.map_congr_left fun l h => writeDebugLine_small d.filter (hl l h),
    List.map_congr_left (g := fun e => writeLabelDef e) fun e he => by unfold writeLabelDef; rw [groupDec_small (by have := hd e he; omega)]]

end AsmParser
