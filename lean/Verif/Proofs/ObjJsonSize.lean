import Verif.Proofs.JsonSize
import Verif.Props.ObjLines

/-
Helper lemmas for C98: the length of the JSON output of binary mode.
-/

namespace AsmParser

attribute [local irreducible] Re.search Re.fullMatch

/-- What is written for the opcodes. -/
def opsSize (os : List Str) : Nat := (os.map fun o => o.length + 4).sum

theorem opsSize_append (a b : List Str) : opsSize (a ++ b) = opsSize a + opsSize b := by
  unfold opsSize; rw [List.map_append, List.sum_append]

theorem splitOpcodes_size (s : Str) : ∀ cur, opsSize (splitOpcodes cur s) ≤ 4 * (cur.length + s.length) := by
  induction s with
  | nil => intro cur; exact Nat.zero_le _
  | cons c cs ih =>
    intro cur
    rw [splitOpcodes, List.length_cons]
    split
    · have := ih (cur ++ [c])
      simp only [List.length_append, List.length_cons, List.length_nil] at this
      omega
    · split
      · have := ih []
        simp only [List.length_nil] at this
        omega
      · rename_i h
        have := ih []
        have h0 : cur.length ≠ 0 := fun e => h (by rw [List.eq_nil_of_length_eq_zero e]; rfl)
        have e : opsSize (cur :: splitOpcodes [] cs) = (cur.length + 4) + opsSize (splitOpcodes [] cs) := by
          unfold opsSize; rw [List.map_cons, List.sum_cons]
        simp only [List.length_nil] at this
        omega

theorem wrap32_size (n : Int) : (wrap32 n).natAbs ≤ 2147483648 := by
  unfold wrap32
  simp only
  split <;> omega

theorem addrLoop_size (s : Str) : ∀ a : AddrAcc, (addrLoop s a).addr.natAbs ≤ a.addr.natAbs + s.length * 2147483648 := by
  induction s with
  | nil => intro a; rw [addrLoop]; omega
  | cons c cs ih =>
    intro a
    rw [addrLoop, List.length_cons]
    split
    · simp only; omega
    · simp only
      refine Nat.le_trans (ih _) ?_
      simp only
      split
      · split
        · simp only; omega
        · simp only
          have := wrap32_size (hex2int c * 2 ^ a.bits.toNat)
          omega
      · omega

theorem addr_digits (s : Str) : (intToDec (addrLoop s {}).addr).length ≤ s.length + 12 := by
  refine intToDec_digits (k := s.length + 10) ?_
  have h := addrLoop_size s {}
  have h0 : ({} : AddrAcc).addr.natAbs = 0 := rfl
  have h1 : s.length < 10 ^ s.length := Nat.lt_pow_self (by decide)
  have h2 : (10 : Nat) ^ (s.length + 10 + 1) = 10 ^ s.length * 100000000000 := by rw [Nat.add_assoc, Nat.pow_add]
  rw [h2]
  omega

/-- The sizes of what is remembered after `k` characters. -/
structure OState.Slim (k : Nat) (s : OState) : Prop where
  text : 4 * s.text.length + opsSize s.currentLine.opcodes ≤ 16 * k
  sect : s.currentSection.length ≤ k
  file : s.currentSourceRef.file.length ≤ 4 * k
  line : s.currentSourceRef.line.natAbs < 10 ^ 10
  col : s.currentSourceRef.column = 0
  ref : s.currentLabelReference.startCol < 65536
  refs : ∀ r ∈ s.currentLine.labels, r.name.length ≤ 4 * k ∧ r.startCol < 65536 ∧ r.endCol < 65536
  addr : ∀ a, s.currentLine.address = some a → (intToDec a).length ≤ 4 * k + 12

theorem OState.Slim.mono {k k' : Nat} {s : OState} (h : s.Slim k) (hk : k ≤ k') : s.Slim k' :=
  ⟨Nat.le_trans h.text (by omega), Nat.le_trans h.sect hk, Nat.le_trans h.file (by omega), h.line, h.col, h.ref,
   fun r hr => ⟨Nat.le_trans (h.refs r hr).1 (by omega), (h.refs r hr).2⟩, fun a ha => Nat.le_trans (h.addr a ha) (by omega)⟩

/-- A step that leaves the line alone. -/
theorem OState.Slim.grow {k : Nat} {s s' : OState} (h : s.Slim k) (t : s'.text.length ≤ s.text.length + 4)
    (e1 : s'.currentLine = s.currentLine) (e2 : s'.currentSection.length ≤ k + 1) (e3 : s'.currentSourceRef = s.currentSourceRef)
    (e4 : s'.currentLabelReference.startCol < 65536) : s'.Slim (k + 1) := by
  have h' := h.mono (Nat.le_succ k)
  refine ⟨?_, e2, ?_, ?_, ?_, e4, ?_, ?_⟩
  · have := h.text
    rw [e1]; omega
  · rw [e3]; exact h'.file
  · rw [e3]; exact h'.line
  · rw [e3]; exact h'.col
  · rw [e1]; exact h'.refs
  · rw [e1]; exact h'.addr

theorem append_text (s : OState) (c : Byte) : (s.append c).text.length ≤ s.text.length + 1 := by
  unfold OState.append
  split
  · omega
  · simp only [List.length_append, List.length_cons, List.length_nil]; omega

theorem append_rest (s : OState) (c : Byte) : (s.append c).currentLine = s.currentLine ∧ (s.append c).currentSection = s.currentSection ∧
    (s.append c).currentSourceRef = s.currentSourceRef ∧ (s.append c).currentLabelReference = s.currentLabelReference := by
  unfold OState.append
  split <;> exact ⟨rfl, rfl, rfl, rfl⟩

theorem OState.Slim.append {k : Nat} {s : OState} (h : s.Slim k) (c : Byte) : (s.append c).Slim (k + 1) := by
  obtain ⟨e1, e2, e3, e4⟩ := append_rest s c
  exact h.grow (Nat.le_trans (append_text s c) (by omega)) e1 (by rw [e2]; exact Nat.le_trans h.sect (Nat.le_succ k)) e3 (by rw [e4]; exact h.ref)

/-- Flags do not matter. -/
theorem OState.Slim.flags {k : Nat} {s s' : OState} (h : s.Slim k) (e0 : s'.text = s.text) (e1 : s'.currentLine = s.currentLine)
    (e2 : s'.currentSection = s.currentSection) (e3 : s'.currentSourceRef = s.currentSourceRef)
    (e4 : s'.currentLabelReference = s.currentLabelReference) : s'.Slim k :=
  ⟨by rw [e0, e1]; exact h.text, by rw [e2]; exact h.sect, by rw [e3]; exact h.file, by rw [e3]; exact h.line, by rw [e3]; exact h.col,
   by rw [e4]; exact h.ref, by rw [e1]; exact h.refs, by rw [e1]; exact h.addr⟩

theorem OState.Slim.clear {k : Nat} {s s' : OState} (h : s.Slim k) (e0 : s'.text = []) (e1 : s'.currentLine = s.currentLine)
    (e2 : s'.currentSection = s.currentSection) (e3 : s'.currentSourceRef = s.currentSourceRef)
    (e4 : s'.currentLabelReference = s.currentLabelReference) : s'.Slim k :=
  ⟨by rw [e0, e1]; have := h.text; simp only [List.length_nil]; omega, by rw [e2]; exact h.sect, by rw [e3]; exact h.file,
   by rw [e3]; exact h.line, by rw [e3]; exact h.col, by rw [e4]; exact h.ref, by rw [e1]; exact h.refs, by rw [e1]; exact h.addr⟩

theorem OState.Slim.updateLine {k : Nat} {s : OState} (h : s.Slim k) : s.updateSourceRefLineNumber.Slim k := by
  unfold OState.updateSourceRefLineNumber
  simp only
  split
  · exact h.flags rfl rfl rfl rfl rfl
  · rename_i hn
    split
    · refine ⟨h.text, h.sect, h.file, ?_, h.col, h.ref, h.refs, h.addr⟩
      show (atoi s.text).natAbs < 10 ^ 10
      have : (10 : Nat) ^ 10 = 10000000000 := by decide
      omega
    · exact h

theorem OState.Slim.opcodes {k : Nat} {s : OState} (h : s.Slim k) : s.opcodes.Slim k := by
  unfold OState.opcodes
  simp only
  split
  · exact h.clear rfl rfl rfl rfl rfl
  · refine ⟨?_, h.sect, h.file, h.line, h.col, h.ref, h.refs, h.addr⟩
    have := h.text
    have h2 := splitOpcodes_size s.text []
    simp only [List.length_nil, opsSize_append] at h2 ⊢
    omega

theorem OState.Slim.address {k : Nat} {s : OState} (h : s.Slim k) : s.address.Slim k := by
  unfold OState.address
  simp only
  split
  · split
    · exact ⟨Nat.le_trans (by simp [OState.actuallyFilename, OState.doFileCheck]) h.text, h.sect, h.file, h.line, h.col, h.ref, h.refs, h.addr⟩
    · unfold OState.actuallyAddress
      split
      · exact h.clear rfl rfl rfl rfl rfl
      · have ha : (intToDec (addrLoop s.text.reverse {}).addr).length ≤ 4 * k + 12 := by
          have := addr_digits s.text.reverse
          rw [List.length_reverse] at this
          have := h.text
          omega
        have ht : 4 * ([] : Str).length + opsSize s.currentLine.opcodes ≤ 16 * k := by
          have := h.text
          simp only [List.length_nil]; omega
        simp only
        split
        · exact ⟨ht, h.sect, h.file, h.line, h.col, h.ref, h.refs, fun a e => by cases e; exact ha⟩
        · exact ⟨ht, h.sect, h.file, h.line, h.col, h.ref, h.refs, fun a e => by cases e; exact ha⟩
  · exact h.clear rfl rfl rfl rfl rfl

theorem OState.Slim.labelref {k : Nat} {s : OState} (h : s.Slim k) (L : Locale) (f : Filter) : (s.labelref L f).Slim k := by
  unfold OState.labelref
  simp only
  split
  · exact ⟨h.text, h.sect, h.file, h.line, h.col, (show (0 : Nat) < 65536 by decide), h.refs, h.addr⟩
  · split
    · exact ⟨h.text, h.sect, h.file, h.line, h.col, (show (0 : Nat) < 65536 by decide), h.refs, h.addr⟩
    · split
      · exact ⟨h.text, h.sect, h.file, h.line, h.col, (show (0 : Nat) < 65536 by decide), h.refs, h.addr⟩
      · refine ⟨h.text, h.sect, h.file, h.line, h.col, (show (0 : Nat) < 65536 by decide), fun r hr => ?_, h.addr⟩
        rcases List.mem_append.1 hr with hr | hr
        · exact h.refs r hr
        · rw [List.mem_singleton] at hr
          subst hr
          refine ⟨?_, h.ref, Nat.mod_lt _ (by decide)⟩
          have := h.text
          simp only [List.length_drop]
          omega

theorem OState.Slim.step {k : Nat} {s : OState} (h : s.Slim k) (L : Locale) (f : Filter) (c : Byte) : (s.step L f c).Slim (k + 1) := by
  have h' := h.mono (Nat.le_succ k)
  unfold OState.step
  split
  · unfold OState.stepAddress
    split
    · exact (h.flags rfl rfl rfl rfl rfl : OState.Slim k { s with inAddress := false, inSourceRef := true }).append c
    · split
      · exact h'
      · split
        · exact h'.address
        · split
          · split
            · refine OState.Slim.append ?_ c
              exact ⟨h.text, Nat.zero_le _, h.file, h.line, h.col, h.ref, h.refs, h.addr⟩
            · split
              · exact h'.address.flags rfl rfl rfl rfl rfl
              · exact h'
          · exact h.append c
  · split
    · exact h.append c
    · split
      · unfold OState.stepOpcodes
        split
        · split
          · exact h'
          · split
            · exact h'.opcodes
            · exact h.append c
        · split
          · refine h.grow ?_ ?_ ?_ ?_ ?_
            · refine Nat.le_trans (append_text _ c) ?_
              simp only [List.length_append, List.length_cons, List.length_nil]
              omega
            · rw [(append_rest _ c).1]
            · rw [(append_rest _ c).2.1]; exact h'.sect
            · rw [(append_rest _ c).2.2.1]
            · rw [(append_rest _ c).2.2.2]; exact h.ref
          · split
            · exact (h.flags rfl rfl rfl rfl rfl : OState.Slim k { s with inOpcodes := false }).append c
            · exact h.append c
      · split
        · unfold OState.stepRelocation
          split
          · refine h.grow ?_ rfl h'.sect rfl h.ref
            simp only [List.length_append, List.length_cons, List.length_nil]
            omega
          · exact h.append c
        · split
          · unfold OState.stepSection
            split
            · split
              · refine h.grow (by simp) rfl ?_ rfl h.ref
                simp only [List.length_cons, List.length_nil]
                omega
              · exact h.append c
            · split
              · exact h'.clear rfl rfl rfl rfl rfl
              · refine h.grow (by simp) rfl ?_ rfl h.ref
                have := h.sect
                simp only [List.length_append, List.length_cons, List.length_nil]
                omega
          · split
            · unfold OState.stepSourceRef
              split
              · refine ⟨?_, h'.sect, ?_, (show (0 : Nat) < 10 ^ 10 by decide), rfl, h.ref, h'.refs, h'.addr⟩
                · have := h'.text
                  simp only [OState.doFileCheck, List.length_nil]
                  omega
                · have := h'.text
                  simp only [OState.doFileCheck]
                  omega
              · split
                · exact h'.updateLine.clear rfl rfl rfl rfl rfl
                · exact h.append c
            · unfold OState.stepText
              split
              · exact h.append c
              · split
                · exact (h.flags rfl rfl rfl rfl rfl : OState.Slim k { s with inComment := true }).append c
                · split
                  · refine OState.Slim.append ?_ c
                    exact ⟨h.text, h.sect, h.file, h.line, h.col, Nat.mod_lt _ (by decide), h.refs, h.addr⟩
                  · split
                    · have hs : OState.Slim k { s with inSomethingWithALabel := false } := h.flags rfl rfl rfl rfl rfl
                      split
                      · simp only
                        refine OState.Slim.append ?_ c
                        split
                        · exact hs.labelref L f
                        · exact hs
                      · split
                        · exact (hs.labelref L f).append c
                        · exact h.append c
                    · exact h.append c

/-- A step adds at most one reference. -/
theorem step_refs (L : Locale) (f : Filter) (s : OState) (c : Byte) :
    (s.step L f c).currentLine.labels.length ≤ s.currentLine.labels.length + 1 := by
  have ha : ∀ (s : OState), (s.append c).currentLine.labels = s.currentLine.labels := fun s => by rw [(append_rest s c).1]
  have hadr : s.address.currentLine.labels = s.currentLine.labels := by
    unfold OState.address
    simp only
    split
    · split
      · rfl
      · unfold OState.actuallyAddress
        split
        · rfl
        · simp only
          split <;> rfl
    · rfl
  have hop : s.opcodes.currentLine.labels = s.currentLine.labels := by
    unfold OState.opcodes
    simp only
    split <;> rfl
  have hup : s.updateSourceRefLineNumber.currentLine.labels = s.currentLine.labels := by
    unfold OState.updateSourceRefLineNumber
    simp only
    split
    · rfl
    · split <;> rfl
  have hlr : ∀ s : OState, (s.labelref L f).currentLine.labels.length ≤ s.currentLine.labels.length + 1 := by
    intro s
    unfold OState.labelref
    simp only
    split
    · simp
    · split
      · simp
      · split <;> simp
  have hlra : ∀ s : OState, ((s.labelref L f).append c).currentLine.labels.length ≤ s.currentLine.labels.length + 1 := fun s => by
    rw [ha]; exact hlr s
  have triv : ∀ {s' : OState}, s'.currentLine.labels = s.currentLine.labels → s'.currentLine.labels.length ≤ s.currentLine.labels.length + 1 :=
    fun e => by rw [e]; exact Nat.le_succ _
  unfold OState.step
  split
  · unfold OState.stepAddress
    split
    · exact triv (ha _)
    · split
      · exact triv rfl
      · split
        · exact triv hadr
        · split
          · split
            · exact triv (ha _)
            · split
              · exact triv hadr
              · exact triv rfl
          · exact triv (ha _)
  · split
    · exact triv (ha _)
    · split
      · unfold OState.stepOpcodes
        split
        · split
          · exact triv rfl
          · split
            · exact triv hop
            · exact triv (ha _)
        · split
          · exact triv (ha _)
          · split
            · exact triv (ha _)
            · exact triv (ha _)
      · split
        · unfold OState.stepRelocation
          split
          · exact triv rfl
          · exact triv (ha _)
        · split
          · unfold OState.stepSection
            split
            · split
              · exact triv rfl
              · exact triv (ha _)
            · split
              · exact triv rfl
              · exact triv rfl
          · split
            · unfold OState.stepSourceRef
              split
              · exact triv rfl
              · split
                · exact triv hup
                · exact triv (ha _)
            · unfold OState.stepText
              split
              · exact triv (ha _)
              · split
                · exact triv (ha _)
                · split
                  · exact triv (ha _)
                  · split
                    · split
                      · simp only
                        split
                        · exact hlra _
                        · exact triv (ha _)
                      · split
                        · exact hlra _
                        · exact triv (ha _)
                    · exact triv (ha _)

/-! ### Lines -/

/-- The sizes of the parts of a line. -/
structure AsmLine.Slim (k : Nat) (l : AsmLine) : Prop where
  text : l.text.length ≤ 4 * k + 28
  ops : opsSize l.opcodes ≤ 16 * k
  sect : l.sect.length ≤ k
  file : l.source.file.length ≤ 4 * k
  line : l.source.line.natAbs < 10 ^ 10
  col : l.source.column = 0
  refs : ∀ r ∈ l.labels, r.name.length ≤ 4 * k ∧ r.startCol < 65536 ∧ r.endCol < 65536
  addr : ∀ a, l.address = some a → (intToDec a).length ≤ 4 * k + 12

theorem AsmLine.Slim.mono {k k' : Nat} {l : AsmLine} (h : l.Slim k) (hk : k ≤ k') : l.Slim k' :=
  ⟨Nat.le_trans h.text (by omega), Nat.le_trans h.ops (by omega), Nat.le_trans h.sect hk, Nat.le_trans h.file (by omega), h.line, h.col,
   fun r hr => ⟨Nat.le_trans (h.refs r hr).1 (by omega), (h.refs r hr).2⟩, fun a ha => Nat.le_trans (h.addr a ha) (by omega)⟩

theorem OState.Slim.finish {k : Nat} {s : OState} (h : s.Slim k) : s.finishLine.Slim k := by
  have ht := h.text
  unfold OState.finishLine
  simp only
  split
  · exact ⟨by simp only; omega, by simp only; omega, h.sect, h.file, h.line, h.col, h.refs, h.addr⟩
  · refine ⟨by simp only [List.length_cons]; omega, by simp only; omega, h.sect, h.file, h.line, h.col, fun r hr => ?_, h.addr⟩
    obtain ⟨r0, hr0, rfl⟩ := List.mem_map.1 hr
    exact ⟨(h.refs r0 hr0).1, Nat.mod_lt _ (by decide), Nat.mod_lt _ (by decide)⟩

theorem finish_refs (s : OState) : s.finishLine.labels.length = s.currentLine.labels.length := by
  unfold OState.finishLine
  simp only
  split <;> simp

/-- The number of references in lines. -/
def refsCount (ls : List AsmLine) : Nat := (ls.map fun l => l.labels.length).sum

/-- The state after `k` characters. -/
structure OParser.Slim (k : Nat) (p : OParser) : Prop where
  st : p.st.Slim k
  lines : ∀ l ∈ p.lines, l.Slim k
  refs : refsCount p.lines + p.st.currentLine.labels.length ≤ k
  count : p.lines.length ≤ k
  total : p.totalLines ≤ k
  labels : p.labels.length ≤ k
  names : ∀ d ∈ p.labels, d.1.length ≤ 4 * k ∧ d.2 ≤ k + 1

theorem OParser.Slim.mono {k k' : Nat} {p : OParser} (h : p.Slim k) (hk : k ≤ k') : p.Slim k' :=
  ⟨h.st.mono hk, fun l hl => (h.lines l hl).mono hk, Nat.le_trans h.refs hk, Nat.le_trans h.count hk, Nat.le_trans h.total hk,
   Nat.le_trans h.labels hk, fun d hd => ⟨Nat.le_trans (h.names d hd).1 (by omega), Nat.le_trans (h.names d hd).2 (by omega)⟩⟩

theorem OParser.Slim.remove {k : Nat} {p : OParser} (h : p.Slim k) : p.maybeRemoveLastFunction.Slim k := by
  unfold OParser.maybeRemoveLastFunction
  split
  · exact h
  · simp only
    split
    · exact h
    · rename_i idx _ _
      refine ⟨h.st.flags rfl rfl rfl rfl rfl, fun l hl => h.lines l (List.take_subset _ _ hl), ?_, ?_, h.total, ?_,
        fun d hd => h.names d (List.dropLast_subset _ hd)⟩
      · have h1 := h.refs
        have h2 : refsCount (p.lines.take (idx - 1)) ≤ refsCount p.lines := sum_sublist_le _ (List.take_sublist _ _)
        simp only
        omega
      · have := h.count
        simp only [List.length_take]
        omega
      · have := h.labels
        simp only [List.length_dropLast]
        omega

def OParser.stripped (p : OParser) : OParser :=
  match getLabelFromObjdumpLabel p.st.text with
  | some l => { p with st := { p.st with text := l } }
  | none => p

def OParser.libStep (p : OParser) : OParser := if p.filter.libraryFunctions then p.maybeRemoveLastFunction else p

def OParser.entered (p : OParser) : OParser :=
  if shouldIgnoreFunction p.st.text p.filter then
    { p with st := { p.st with ignoreUntilNextLabel := shouldIgnoreFunction p.st.text p.filter } }
  else
    { p with
      st := { p.st with
        ignoreUntilNextLabel := shouldIgnoreFunction p.st.text p.filter
        previousLabel := p.st.text
        currentLine := { p.st.currentLine with label := p.st.text, isLabel := true }
        text := p.st.text ++ b! ":" }
      labels := p.labels ++ [(p.st.text, p.lines.length + 1)] }

theorem label_stages (p : OParser) :
    p.label = if p.st.text.isEmpty then { p with st := { p.st with inLabel := false } } else p.stripped.libStep.entered := rfl

/-- What `label` leaves, except for the counts. -/
theorem OParser.Slim.label {k : Nat} {p : OParser} (h : p.Slim k) :
    p.label.st.Slim (k + 1) ∧ (∀ l ∈ p.label.lines, l.Slim k) ∧ refsCount p.label.lines + p.label.st.currentLine.labels.length ≤ k ∧
    p.label.lines.length ≤ k ∧ p.label.totalLines ≤ k ∧ p.label.labels.length ≤ k + 1 ∧
    ∀ d ∈ p.label.labels, d.1.length ≤ 4 * (k + 1) ∧ d.2 ≤ k + 2 := by
  have plain : ∀ q : OParser, q.Slim k → q.st.Slim (k + 1) ∧ (∀ l ∈ q.lines, l.Slim k) ∧ refsCount q.lines + q.st.currentLine.labels.length ≤ k ∧
      q.lines.length ≤ k ∧ q.totalLines ≤ k ∧ q.labels.length ≤ k + 1 ∧ ∀ d ∈ q.labels, d.1.length ≤ 4 * (k + 1) ∧ d.2 ≤ k + 2 := fun q hq =>
    ⟨hq.st.mono (Nat.le_succ k), hq.lines, hq.refs, hq.count, hq.total, Nat.le_trans hq.labels (Nat.le_succ k),
     fun d hd => ⟨Nat.le_trans (hq.names d hd).1 (by omega), Nat.le_trans (hq.names d hd).2 (by omega)⟩⟩
  rw [label_stages]
  split
  · exact plain _ ⟨h.st.flags rfl rfl rfl rfl rfl, h.lines, h.refs, h.count, h.total, h.labels, h.names⟩
  · have h1 : p.stripped.Slim k := by
      unfold OParser.stripped
      split
      · rename_i l hl
        have hlen : l.length ≤ p.st.text.length := by
          unfold getLabelFromObjdumpLabel at hl
          split at hl
          · cases hl
            simp only [List.length_take, List.length_drop]; omega
          · cases hl
        refine ⟨⟨?_, h.st.sect, h.st.file, h.st.line, h.st.col, h.st.ref, h.st.refs, h.st.addr⟩, h.lines, h.refs, h.count, h.total, h.labels, h.names⟩
        have := h.st.text
        simp only
        omega
      · exact h
    have h2 : p.stripped.libStep.Slim k := by
      unfold OParser.libStep
      split
      · exact h1.remove
      · exact h1
    generalize p.stripped.libStep = q' at h2 ⊢
    unfold OParser.entered
    split
    · exact plain _ ⟨h2.st.flags rfl rfl rfl rfl rfl, h2.lines, h2.refs, h2.count, h2.total, h2.labels, h2.names⟩
    · refine ⟨?_, h2.lines, h2.refs, h2.count, h2.total, ?_, fun d hd => ?_⟩
      · have hm := h2.st.mono (Nat.le_succ k)
        refine ⟨?_, hm.sect, hm.file, hm.line, hm.col, hm.ref, hm.refs, hm.addr⟩
        have := h2.st.text
        simp only [List.length_append, List.length_cons, List.length_nil]
        omega
      · have := h2.labels
        simp only [List.length_append, List.length_cons, List.length_nil]
        omega
      · rcases List.mem_append.1 hd with hd | hd
        · have := h2.names d hd
          omega
        · rw [List.mem_singleton] at hd
          subst hd
          have h3 := h2.st.text
          have h4 := h2.count
          simp only
          omega

theorem OState.Slim.reset {k : Nat} {s : OState} (h : s.Slim k) : s.commonReset.Slim k :=
  ⟨by simp [OState.commonReset, opsSize], h.sect, h.file, h.line, h.col, h.ref, by simp [OState.commonReset], by simp [OState.commonReset]⟩

theorem OParser.Slim.eol {k : Nat} {p : OParser} (h : p.Slim k) : p.eol.Slim (k + 1) := by
  have key : ∀ q : OParser, q.st.Slim (k + 1) → (∀ l ∈ q.lines, l.Slim k) → refsCount q.lines + q.st.currentLine.labels.length ≤ k →
      q.lines.length ≤ k → q.totalLines ≤ k + 1 → q.labels.length ≤ k + 1 → (∀ d ∈ q.labels, d.1.length ≤ 4 * (k + 1) ∧ d.2 ≤ k + 2) →
      q.eolTail.Slim (k + 1) := by
    intro q h1 h2 h3 h4 h5 h6 h7
    have h2' : ∀ l ∈ q.lines, l.Slim (k + 1) := fun l hl => (h2 l hl).mono (Nat.le_succ k)
    have h3' : refsCount q.lines + 0 ≤ k + 1 := by omega
    unfold OParser.eolTail
    split
    · exact ⟨h1.reset, h2', h3', Nat.le_trans h4 (Nat.le_succ k), h5, h6, h7⟩
    · split
      · exact ⟨h1.updateLine.reset, h2', h3', Nat.le_trans h4 (Nat.le_succ k), h5, h6, h7⟩
      · split
        · split
          · refine ⟨h1.reset, fun l hl => ?_, ?_, ?_, h5, h6, h7⟩
            · rcases List.mem_append.1 hl with hl | hl
              · exact h2' l hl
              · rw [List.mem_singleton.1 hl]; exact h1.finish
            · show refsCount (q.lines ++ [q.st.finishLine]) + 0 ≤ k + 1
              unfold refsCount at h3 ⊢
              rw [List.map_append, List.sum_append]
              simp only [List.map_cons, List.map_nil, List.sum_cons, List.sum_nil, finish_refs]
              omega
            · simp only [List.length_append, List.length_cons, List.length_nil]; omega
          · refine ⟨(h1.flags rfl rfl rfl rfl rfl : OState.Slim (k + 1) { q.st with stopParsing := true }).reset, fun l hl => ?_, ?_, ?_, h5, h6, h7⟩
            · rcases List.mem_append.1 hl with hl | hl
              · exact h2' l hl
              · rw [List.mem_singleton.1 hl]
                exact ⟨by rw [show truncatedText.length = 27 by decide]; omega, Nat.zero_le _, Nat.zero_le _, Nat.zero_le _, by decide, rfl,
                  by simp, by simp⟩
            · show refsCount (q.lines ++ [_]) + 0 ≤ k + 1
              unfold refsCount at h3 ⊢
              rw [List.map_append, List.sum_append]
              simp only [List.map_cons, List.map_nil, List.sum_cons, List.sum_nil, List.length_nil]
              omega
            · simp only [List.length_append, List.length_cons, List.length_nil]; omega
        · exact ⟨h1.reset, h2', h3', Nat.le_trans h4 (Nat.le_succ k), h5, h6, h7⟩
  unfold OParser.eol
  simp only
  split
  · -- `label` does not look at the number of lines
    have e1 : ({ p with totalLines := p.totalLines + 1 } : OParser).stripped = { p.stripped with totalLines := p.totalLines + 1 } := by
      unfold OParser.stripped
      simp only
      split <;> rfl
    have e0 : ∀ q : OParser, ({ q with totalLines := p.totalLines + 1 } : OParser).maybeRemoveLastFunction =
        { q.maybeRemoveLastFunction with totalLines := p.totalLines + 1 } := by
      intro q
      unfold OParser.maybeRemoveLastFunction
      simp only
      split
      · rfl
      · split <;> rfl
    have e2 : ∀ q : OParser, ({ q with totalLines := p.totalLines + 1 } : OParser).libStep = { q.libStep with totalLines := p.totalLines + 1 } := by
      intro q
      unfold OParser.libStep
      simp only
      split
      · exact e0 q
      · rfl
    have e3 : ∀ q : OParser, ({ q with totalLines := p.totalLines + 1 } : OParser).entered = { q.entered with totalLines := p.totalLines + 1 } := by
      intro q
      unfold OParser.entered
      simp only
      split <;> rfl
    have e : ({ p with totalLines := p.totalLines + 1 } : OParser).label = { p.label with totalLines := p.totalLines + 1 } := by
      rw [label_stages, label_stages]
      simp only
      split
      · rfl
      · rw [e1, e2, e3]
    obtain ⟨g1, g2, g3, g4, -, g6, g7⟩ := h.label
    rw [e]
    exact key _ g1 g2 g3 g4 (Nat.succ_le_succ h.total) g6 g7
  · refine key _ (h.st.mono (Nat.le_succ k)) h.lines h.refs h.count (Nat.succ_le_succ h.total) (Nat.le_trans h.labels (Nat.le_succ k))
      fun d hd => ?_
    have := h.names d hd
    omega

theorem OParser.Slim.feed {k : Nat} {p : OParser} (h : p.Slim k) (L : Locale) (c : Byte) : (p.feed L c).Slim (k + 1) := by
  have h' := h.mono (Nat.le_succ k)
  unfold OParser.feed
  split
  · exact h'
  · split
    · exact h'
    · split
      · exact h.eol
      · split
        · exact h'
        · refine ⟨h.st.step L p.filter c, h'.lines, ?_, h'.count, h'.total, h'.labels, h'.names⟩
          have := step_refs L p.filter p.st c
          have := h.refs
          simp only
          omega

theorem slim_foldl (L : Locale) (s : Str) : ∀ (k : Nat) (p : OParser), p.Slim k → (s.foldl (OParser.feed L) p).Slim (k + s.length) := by
  induction s with
  | nil => intro k p h; exact h
  | cons c s ih =>
    intro k p h
    have := ih (k + 1) _ (h.feed L c)
    rw [List.length_cons, show k + (s.length + 1) = k + 1 + s.length by omega]
    exact this

theorem slim_parse (L : Locale) (f : Filter) (s : Str) : (objParse L f s).Slim s.length := by
  have h0 : OParser.Slim 0 { OParser.init f with totalLines := 0, st := { (OParser.init f).st with inAddress := true } } :=
    ⟨⟨Nat.le_refl _, Nat.le_refl _, Nat.le_refl _, (show (0 : Nat) < 10 ^ 10 by decide), rfl, (show (0 : Nat) < 65536 by decide), by simp [OParser.init], by simp [OParser.init]⟩,
     by simp [OParser.init], by simp [OParser.init, refsCount], Nat.le_refl _, Nat.le_refl _, Nat.le_refl _, by simp [OParser.init]⟩
  have := slim_foldl L s 0 _ h0
  rw [Nat.zero_add] at this
  exact this

theorem AsmLine.Slim.weight {k : Nat} {l : AsmLine} (h : l.Slim k) :
    l.toView.weight + 2 * l.toView.text.length ≤ 38 * k + 252 + l.labels.length * (8 * k + 72) := by
  have hr : (l.toView.labels.map AsmLabel.weight).sum ≤ l.labels.length * (8 * k + 72) := by
    have : (l.labels.map AsmLabel.weight).sum ≤ (l.labels.map fun _ => 8 * k + 72).sum := by
      refine sums_le _ _ _ fun r hr => ?_
      obtain ⟨h1, h2, h3⟩ := h.refs r hr
      have d1 : (intToDec r.startCol).length ≤ 6 := intToDec_digits (k := 4) (by have : (10 : Nat) ^ 5 = 100000 := by decide
                                                                                 omega)
      have d2 : (intToDec r.endCol).length ≤ 6 := intToDec_digits (k := 4) (by have : (10 : Nat) ^ 5 = 100000 := by decide
                                                                               omega)
      unfold AsmLabel.weight
      omega
    refine Nat.le_trans this ?_
    rw [List.map_const', List.sum_replicate_nat]
    exact Nat.le_refl _
  have ho : (l.toView.opcodes.map fun o => o.length + 4).sum ≤ 16 * k := h.ops
  have hl : (intToDec l.source.line).length ≤ 11 := intToDec_digits (k := 9) h.line
  have hc : (intToDec l.source.column).length = 1 := by rw [h.col]; decide
  have h1 := h.text
  have h2 := h.sect
  have h3 := h.file
  have hs : (if l.toView.source.line > 0 then 2 * l.toView.source.file.length + (intToDec l.toView.source.line).length +
      (intToDec l.toView.source.column).length else 0) ≤ 8 * k + 12 := by
    split
    · show 2 * l.source.file.length + (intToDec l.source.line).length + (intToDec l.source.column).length ≤ _
      omega
    · omega
  have e1 : l.toView.text = l.text := rfl
  have e2 : l.toView.sect = l.sect := rfl
  unfold AsmLine.weight
  rw [e1, e2]
  cases ha : l.toView.address with
  | none => simp only; omega
  | some a =>
    have := h.addr a ha
    simp only
    omega

end AsmParser
