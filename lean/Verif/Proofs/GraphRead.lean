import Verif.Proofs.Graph

/-! The references that reading the input records, for C65. -/

namespace AsmParser

attribute [local irreducible] Re.search Re.fullMatch

variable [Recognizers]

theorem line_texts (f : Filter) (sc : Scan) (p : TParser) (l : Str) (hf : p.filter = f) (h : ReadInv sc p) :
    (Scan.line f sc l).texts =
      if ((p.addText l).inBlock || isEmptyOrJustWhitespace (p.addText l).st.text || ((p.addText l).filter.directives && (p.addText l).atProc)) = true
      then sc.texts else sc.texts ++ [(p.addText l).seen] := by
  have hraw : (p.addText l).st.text = sc.carry ++ l := by show p.st.text ++ l = _; rw [h.carry]
  have hblk : (p.addText l).inBlock = (f.commentOnly && (sc.inside || opensComment (sc.carry ++ l))) := by
    unfold TParser.inBlock
    rw [show (p.addText l).filter = f from hf, hraw, startCommentBlock_opens,
      show (p.addText l).st.hasStartedCommentBlock = p.st.hasStartedCommentBlock from rfl, h.inside]
  have hnest : nesting (p.addText l).st.inCustomAssembly (p.addText l).st.text =
      if startsWithWord [b! "#APP", b! "# Begin ASM"] (sc.carry ++ l) then sc.nest + 1
      else if startsWithWord [b! "#NO_APP", b! "# End ASM"] (sc.carry ++ l) then sc.nest - 1 else sc.nest := by
    rw [nesting_scan, hraw, show (p.addText l).st.inCustomAssembly = p.st.inCustomAssembly from rfl, h.nest]
  have hnv : (p.addText l).nv = (sc.code, sc.params) := h.nv
  have hpl : sc.placed = ((p.addText l).st.currentSourceRef.line != 0) := h.placed
  have hfl : (p.addText l).filter = f := hf
  clear h hf
  unfold Scan.line
  simp only
  rw [← hblk, ← white_scan, ← hraw]
  rw [← hraw] at hnest
  rw [← hnest]
  generalize p.addText l = p at *
  have hnew : p.newLine.text = cleaned f (if nesting p.st.inCustomAssembly p.st.text > 0 then fixLabelIndentation p.st.text else p.st.text) := by
    rw [← hfl]; rfl
  cases h1 : p.inBlock with
  | true => simp
  | false =>
    cases h2 : isEmptyOrJustWhitespace p.st.text with
    | true => simp
    | false =>
      rw [← hnew]
      have hsee := see_eq { sc with nest := nesting p.st.inCustomAssembly p.st.text, carry := [] } p (congrArg (·.1) hnv) (congrArg (·.2) hnv) hpl rfl
      rw [hfl] at hsee
      simp only [Bool.false_eq_true, if_false, Bool.false_or]
      rw [hsee, hfl]
      by_cases h3 : f.directives = true ∧ p.atProc = true
      · rw [if_pos h3, h3.1, h3.2]; rfl
      · rw [if_neg h3, if_neg (by rw [Bool.and_eq_true]; exact h3)]
        unfold seeWith
        simp only
        split <;> rfl

omit [Recognizers] in
theorem lookup_isSome {m : List (Str × Nat)} {a : Str} {n : Nat} (h : (a, n) ∈ m) : (m.lookup a).isSome = true := by
  induction m with
  | nil => cases h
  | cons e m ih =>
    obtain ⟨k, v⟩ := e
    rw [List.lookup_cons]
    split
    · rfl
    · rcases List.mem_cons.1 h with h | h
      · injection h with h1 h2
        subst h1
        simp_all
      · exact ih h

/-- What holds after reading the lines `done`. -/
structure LabelInv (ts : List Seen) (p : TParser) : Prop where
  graph : GraphInv ts p.graph
  inside : Inside p.st.currentSourceRef

theorem labelInv_step (L : Locale) (f : Filter) (sc : Scan) (p : TParser) (l : Str) (hf : p.filter = f) (hb : Basic p)
    (h : ReadInv sc p) (hg : LabelInv sc.texts p) : LabelInv (Scan.line f sc l).texts ((p.addText l).eol L) := by
  have ht := line_texts f sc p l hf h
  have hgr := eol_graph L (p.addText l) (basic_addText hb l)
  have hsrc := eol_src L (p.addText l) (basic_addText hb l)
  have hstate : SrcState sc.texts (p.addText l) := h.state.congr rfl
  have hG : GraphInv sc.texts (p.addText l).graph := hg.graph
  have hI : Inside (p.addText l).st.currentSourceRef := hg.inside
  clear h hg hb hf
  rw [ht]
  clear ht
  generalize p.addText l = p at *
  generalize p.eol L = p' at *
  refine ⟨?_, ?_⟩
  · rcases hgr with ⟨h, e⟩ | ⟨h, hs, e⟩ | ⟨h, hs, l, a, c, hl, e⟩ | ⟨h, hs, hl, u, hu, e⟩
    · rw [if_pos h, e]; exact hG
    · rw [h, if_neg (by simp)]; exact graphInv_skip hI hG hs e
    · rw [h, if_neg (by simp)]; exact graphInv_label hI hG hs l a c hl _ e
    · rw [h, if_neg (by simp)]; exact graphInv_line L hI hstate hG hs hl u hu e
  · have h1 : ∀ q : TParser, p'.src = q.src → p'.st.currentSourceRef = q.st.currentSourceRef := fun q e => congrArg (·.1) e
    rcases hsrc with ⟨_, _, e, _⟩ | ⟨_, _, _, e, _⟩ | ⟨_, _, _, _, _, e, _⟩ | ⟨_, _, _, _, e, _⟩
    · rw [h1 p e]; exact hI
    · rw [h1 p e]; exact hI
    · rw [h1 p e]; exact hI
    · rw [h1 p.sec e]; exact (sec_graph p hI).1

/-- The references after the input is read. -/
theorem readGraph (L : Locale) (f : Filter) (s : Str) : GraphInv (seen f s) ((TParser.init f).readStream L s).graph := by
  obtain ⟨e, he, h, -, -⟩ := readStream_lines L f (fun done p => TextInv L f done p ∧ ReadInv (scanned f done) p ∧ LabelInv (scanned f done).texts p)
    ⟨⟨fun c hc => absurd hc (by simp [TParser.init]), by simp [TParser.init], by simp [TParser.init],
      ⟨by simp [TParser.init], by simp [TParser.init], by simp [TParser.init], by simp [TParser.init]⟩, trivial, fun _ => rfl⟩,
     ⟨rfl, rfl, rfl, rfl, rfl, rfl, fun h => (h rfl).elim,
      ⟨⟨none, .start, rfl, rfl⟩, fun i name => ⟨fun h => by simp [TParser.init] at h, fun ⟨a, t, b, e, _⟩ => by
        simp [scanned] at e⟩, .inl ⟨rfl, fun t ht => by simp [scanned] at ht⟩, .inl ⟨rfl, fun t ht => by simp [scanned] at ht⟩⟩,
        [], rfl, by simp, .nil, by simp, fun za z zb e => by simp at e⟩,
     ⟨graphInv_nil, ⟨fun h => (by simp [TParser.init] at h), fun h => (h rfl).elim⟩⟩⟩
    (fun done p l _ hf hb h hs => ⟨textInv_step L f done p l hf h.1 hs, by
      rw [scanned_snoc]
      exact readInv_step L f _ p l hf hb h.2.1 hs, by
      rw [scanned_snoc]
      exact labelInv_step L f _ p l hf hb h.2.1 h.2.2⟩) s
  rcases he with rfl | ⟨rfl, q, hq, hi', hr, -⟩
  · rw [List.append_nil] at h
    exact h.2.2.graph
  · obtain ⟨hi, -, h⟩ := h
    have hb : (scanned f (inputLines s)).carry.all (fun c => c = 32 || c = 9) = true := by
      rw [← hr.carry, ← white_scan, blanks_white]
      exact hi'.carry
    have e : (Scan.line f (scanned f (inputLines s)) []).texts = seen f s := by
      unfold Scan.line
      simp only [List.append_nil, hb, if_true]
      split <;> rfl
    rw [scanned_snoc, e] at h
    exact h.graph

end AsmParser
