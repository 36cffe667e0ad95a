/-
Helper lemmas: what one character does to the state of the objdump parser.  Each building block is
rewritten as a single record update, so that unrelated fields are seen to be unchanged by `rfl`.
-/
import Verif.Model.Objdump

namespace AsmParser

theorem Bool.eq_false_of_ne {b : Bool} (h : ¬ b = true) : b = false := by simpa using h

/-- The text after appending a character. -/
def appText (t : Str) (c : Byte) : Str := if isWhitespace c && t.isEmpty then t else t ++ [c]

theorem append_eq (s : OState) (c : Byte) : s.append c = { s with text := appText s.text c } := by
  unfold OState.append appText; split <;> rfl

/-- Does `atoi` of the text overflow? -/
def srcUb (s : OState) : Bool := decide (atoi s.text < -2147483648 ∨ 2147483647 < atoi s.text)

/-- The source reference after `updateSourceRefLineNumber`. -/
def srcUpd (s : OState) : AsmSource :=
  if srcUb s then s.currentSourceRef
  else if atoi s.text > 0 then { s.currentSourceRef with line := atoi s.text } else s.currentSourceRef

theorem updateSourceRef_eq (s : OState) :
    s.updateSourceRefLineNumber = { s with currentSourceRef := srcUpd s, ub := s.ub || srcUb s } := by
  unfold OState.updateSourceRefLineNumber srcUpd srcUb
  by_cases h : atoi s.text < -2147483648 ∨ 2147483647 < atoi s.text
  · simp [h]
  · simp [h]
    split <;> rfl

/-- The label references after `labelref`. -/
def refLabels (L : Locale) (filter : Filter) (s : OState) : List AsmLabel :=
  if s.ignoreUntilNextLabel || decide (s.text.length < s.currentLabelReference.startCol)
      || shouldIgnoreFunction (s.text.drop s.currentLabelReference.startCol) filter then s.currentLine.labels
  else s.currentLine.labels ++
    [{ name := s.text.drop s.currentLabelReference.startCol,
       startCol := s.currentLabelReference.startCol, endCol := ustrlen L s.text % 65536 }]

theorem labelref_eq (L : Locale) (f : Filter) (s : OState) :
    s.labelref L f = { s with currentLine := { s.currentLine with labels := refLabels L f s },
                              currentLabelReference := {} } := by
  unfold OState.labelref refLabels
  by_cases h1 : s.ignoreUntilNextLabel = true
  · simp [h1]
  · by_cases h2 : s.text.length < s.currentLabelReference.startCol
    · simp [h1, h2]
    · by_cases h3 : shouldIgnoreFunction (s.text.drop s.currentLabelReference.startCol) f = true <;>
        simp [h1, h2, h3]

theorem opcodes_eq (s : OState) :
    s.opcodes = { s with
      currentLine := { s.currentLine with
        opcodes := if s.ignoreUntilNextLabel then s.currentLine.opcodes
          else s.currentLine.opcodes ++ splitOpcodes [] s.text }
      text := [], inOpcodes := false } := by
  unfold OState.opcodes; by_cases h : s.ignoreUntilNextLabel = true <;> simp [h]

/-- Is the text an address with a character that is not a hexadecimal digit? -/
def addrBad (s : OState) : Bool := !s.ignoreUntilNextLabel && (addrLoop s.text.reverse {}).notHex

theorem actuallyAddress_eq (s : OState) :
    s.actuallyAddress = { s with
      inAddress := false
      inOpcodes := if addrBad s then s.inOpcodes else true
      skipRestOfTheLine := s.skipRestOfTheLine || addrBad s
      currentLine := { s.currentLine with
        address := if s.ignoreUntilNextLabel then s.currentLine.address
          else some (addrLoop s.text.reverse {}).addr }
      ub := s.ub || (!s.ignoreUntilNextLabel && (addrLoop s.text.reverse {}).ub) } := by
  unfold OState.actuallyAddress addrBad
  by_cases h : s.ignoreUntilNextLabel = true
  · simp [h]
  · by_cases h2 : (addrLoop s.text.reverse {}).notHex = true <;> simp [h, h2]

/-- Does the text start with a slash? -/
def slashText (s : OState) : Bool := s.text.head? == some c! '/'

theorem address_eq (s : OState) :
    s.address = { s with
      text := []
      inAddress := false
      inOpcodes := if slashText s || s.text.isEmpty then false
        else if addrBad s then s.inOpcodes else true
      skipRestOfTheLine := if slashText s then true else if s.text.isEmpty then s.skipRestOfTheLine
        else (s.skipRestOfTheLine || addrBad s)
      currentFilename := if slashText s then s.text else s.currentFilename
      currentSourceRef := if slashText s then
        { s.currentSourceRef with isUsercode := !fileInLibrary s.text } else s.currentSourceRef
      currentLine := if slashText s || s.text.isEmpty then s.currentLine else { s.currentLine with
        address := if s.ignoreUntilNextLabel then s.currentLine.address
          else some (addrLoop s.text.reverse {}).addr }
      ub := if slashText s || s.text.isEmpty then s.ub
        else (s.ub || (!s.ignoreUntilNextLabel && (addrLoop s.text.reverse {}).ub)) } := by
  unfold OState.address slashText
  split
  · rename_i c cs h
    by_cases hc : c = c! '/'
    · subst hc; simp [h, OState.actuallyFilename, OState.doFileCheck]
    · simp [h, hc, actuallyAddress_eq]
  · rename_i h; simp [h]

/-! ### Case analysis -/

/-- The state after `address` when the text is not empty and is not a file name. -/
def addrDone (s : OState) (lbl : Bool) : OState :=
  { s with
    text := []
    inAddress := false
    inLabel := lbl
    inOpcodes := if addrBad s then s.inOpcodes else true
    skipRestOfTheLine := s.skipRestOfTheLine || addrBad s
    currentLine := { s.currentLine with
      address := if s.ignoreUntilNextLabel then s.currentLine.address
        else some (addrLoop s.text.reverse {}).addr }
    ub := s.ub || (!s.ignoreUntilNextLabel && (addrLoop s.text.reverse {}).ub) }

/-- The state after `address` when the text is a file name. -/
def addrFile (s : OState) (lbl : Bool) : OState :=
  { s with
    text := []
    inAddress := false
    inLabel := lbl
    inOpcodes := false
    skipRestOfTheLine := true
    currentFilename := s.text
    currentSourceRef := { s.currentSourceRef with isUsercode := !fileInLibrary s.text } }

theorem address_nil {s : OState} (h : s.text = []) :
    s.address = { s with inAddress := false, inOpcodes := false } := by
  simp [address_eq, h, slashText]

theorem address_slash {s : OState} (h : slashText s = true) : s.address = addrFile s s.inLabel := by
  rw [address_eq]; simp [h, addrFile]

theorem address_done {s : OState} (h : slashText s = false) (h2 : s.text ≠ []) :
    s.address = addrDone s s.inLabel := by
  rw [address_eq]; simp [h, h2, addrDone]

/-- Case analysis of one character: every outcome as one record update, with its guard. -/
theorem step_cases' {L : Locale} {f : Filter} {s : OState} {c : Byte} {P : OState → Prop}
    (a_same : s.inAddress = true → (c = c! ';' ∨ isWhitespace c = true ∧ s.text = []) → P s)
    (o_same : s.inAddress = false → s.inLabel = false → s.inOpcodes = true → isWhitespace c = true →
      s.text = [] → P s)
    (a_app : s.inAddress = true → c ≠ c! '/' → c ≠ c! ':' → c ≠ c! ';' → isWhitespace c = false →
      P { s with text := s.text ++ [c] })
    (l_app : s.inAddress = false → s.inLabel = true → P { s with text := appText s.text c })
    (o_ws : s.inAddress = false → s.inLabel = false → s.inOpcodes = true → isWhitespace c = true →
      s.text ≠ [] → s.text.getLast? ≠ some c! ' ' → P { s with text := s.text ++ [c] })
    (o_hex : s.inAddress = false → s.inLabel = false → s.inOpcodes = true → isHex c = true →
      P { s with text := s.text ++ [c] })
    (r_app : s.inAddress = false → s.inLabel = false → s.inOpcodes = false → s.inRelocation = true →
      c ≠ 9 → P { s with text := appText s.text c })
    (s_app : s.inAddress = false → s.inLabel = false → s.inOpcodes = false → s.inRelocation = false →
      s.inSectionStart = true → s.inSectionName = false → s.text ≠ b! "Disassembly of section " →
      P { s with text := appText s.text c })
    (f_app : s.inAddress = false → s.inLabel = false → s.inOpcodes = false → s.inRelocation = false →
      s.inSectionStart = false → s.inSourceRef = true → c ≠ c! ':' →
      (s.inSourceRefLineNumber = true → isWhitespace c = false) →
      P { s with text := appText s.text c })
    (t_app : s.inAddress = false → s.inLabel = false → s.inOpcodes = false → s.inRelocation = false →
      s.inSectionStart = false → s.inSourceRef = false →
      (s.inComment = false → c ≠ c! '#' ∧ c ≠ c! '<' ∧
        (s.inSomethingWithALabel = true → c ≠ c! '>' ∧ c ≠ c! '+')) →
      P { s with text := appText s.text c })
    (a_slash : s.inAddress = true → c = c! '/' →
      P { s with inAddress := false, inSourceRef := true, text := s.text ++ [c] })
    (a_colon_nil : s.inAddress = true → c = c! ':' → s.text = [] →
      P { s with inAddress := false, inOpcodes := false })
    (a_colon_file : s.inAddress = true → c = c! ':' → slashText s = true → P (addrFile s s.inLabel))
    (a_colon : s.inAddress = true → c = c! ':' → slashText s = false → s.text ≠ [] →
      P (addrDone s s.inLabel))
    (a_dis : s.inAddress = true → isWhitespace c = true → s.text = b! "Disassembly" →
      P { s with inAddress := false, inSectionStart := true, currentSection := [],
                 text := s.text ++ [c] })
    (a_ws_file : s.inAddress = true → isWhitespace c = true → slashText s = true → P (addrFile s true))
    (a_ws : s.inAddress = true → isWhitespace c = true → slashText s = false → s.text ≠ [] →
      s.text ≠ b! "Disassembly" → P (addrDone s true))
    (o_split : s.inAddress = false → s.inLabel = false → s.inOpcodes = true → isWhitespace c = true →
      s.text.getLast? = some c! ' ' →
      P { s with
          currentLine := { s.currentLine with
            opcodes := if s.ignoreUntilNextLabel then s.currentLine.opcodes
              else s.currentLine.opcodes ++ splitOpcodes [] s.text }
          text := [], inOpcodes := false })
    (o_reloc : s.inAddress = false → s.inLabel = false → s.inOpcodes = true → c = c! 'R' →
      P { s with inRelocation := true, inOpcodes := false, text := s.text ++ b! "   " ++ [c] })
    (o_other : s.inAddress = false → s.inLabel = false → s.inOpcodes = true → isHex c = false →
      isWhitespace c = false → P { s with inOpcodes := false, text := s.text ++ [c] })
    (r_tab : s.inAddress = false → s.inLabel = false → s.inOpcodes = false → s.inRelocation = true →
      c = 9 → P { s with text := s.text ++ b! " " })
    (s_name : s.inAddress = false → s.inLabel = false → s.inOpcodes = false → s.inRelocation = false →
      s.inSectionStart = true → s.inSectionName = false → s.text = b! "Disassembly of section " →
      P { s with inSectionName := true, text := [], currentSection := [c] })
    (s_colon : s.inAddress = false → s.inLabel = false → s.inOpcodes = false → s.inRelocation = false →
      s.inSectionStart = true → s.inSectionName = true → c = c! ':' →
      P { s with skipRestOfTheLine := true, text := [] })
    (s_char : s.inAddress = false → s.inLabel = false → s.inOpcodes = false → s.inRelocation = false →
      s.inSectionStart = true → s.inSectionName = true → c ≠ c! ':' →
      P { s with currentSection := s.currentSection ++ [c] })
    (f_colon : s.inAddress = false → s.inLabel = false → s.inOpcodes = false → s.inRelocation = false →
      s.inSectionStart = false → s.inSourceRef = true → c = c! ':' →
      P { s with
          currentSourceRef := { file := s.text, isUsercode := !fileInLibrary s.text }
          currentFilename := s.text, text := [], inSourceRef := true, inSourceRefLineNumber := true })
    (f_ws : s.inAddress = false → s.inLabel = false → s.inOpcodes = false → s.inRelocation = false →
      s.inSectionStart = false → s.inSourceRef = true → s.inSourceRefLineNumber = true →
      isWhitespace c = true →
      P { s with currentSourceRef := srcUpd s, ub := s.ub || srcUb s, text := [],
                 skipRestOfTheLine := true })
    (t_hash : s.inAddress = false → s.inLabel = false → s.inOpcodes = false → s.inRelocation = false →
      s.inSectionStart = false → s.inSourceRef = false → s.inComment = false → c = c! '#' →
      P { s with inComment := true, text := s.text ++ [c] })
    (t_lt : s.inAddress = false → s.inLabel = false → s.inOpcodes = false → s.inRelocation = false →
      s.inSectionStart = false → s.inSourceRef = false → s.inComment = false → c = c! '<' →
      P { s with
          inSomethingWithALabel := true
          currentLabelReference := { s.currentLabelReference with
            startCol := (ustrlen L s.text + 1) % 65536, endCol := 0 }
          text := s.text ++ [c] })
    (t_gt : s.inAddress = false → s.inLabel = false → s.inOpcodes = false → s.inRelocation = false →
      s.inSectionStart = false → s.inSourceRef = false → s.inComment = false →
      s.inSomethingWithALabel = true → c = c! '>' → s.currentLabelReference.name ≠ [] →
      P { s with inSomethingWithALabel := false, text := s.text ++ [c] })
    (t_ref : s.inAddress = false → s.inLabel = false → s.inOpcodes = false → s.inRelocation = false →
      s.inSectionStart = false → s.inSourceRef = false → s.inComment = false →
      s.inSomethingWithALabel = true → (c = c! '>' ∨ c = c! '+') →
      P { s with
          inSomethingWithALabel := false
          currentLine := { s.currentLine with labels := refLabels L f s }
          currentLabelReference := {}
          text := s.text ++ [c] }) :
    P (s.step L f c) := by
  have hws : ∀ {c : Byte}, (c == c! ' ' || c == 9) = isWhitespace c := fun {c} => rfl
  have refl' : ∀ b : Bool, refLabels L f { s with inSomethingWithALabel := b } = refLabels L f s :=
    fun b => rfl
  unfold OState.step
  split
  · rename_i hA
    unfold OState.stepAddress
    split
    · rename_i h; have h : c = 47 := by simpa using h
      subst h; simpa [append_eq, appText, isWhitespace] using a_slash hA rfl
    rename_i h1; have h1 : c ≠ 47 := by simpa using h1
    split
    · rename_i h; exact a_same hA (.inl (by simpa using h))
    rename_i h2; have h2 : c ≠ 59 := by simpa using h2
    split
    · rename_i h; have h : c = 58 := by simpa using h
      by_cases ht : s.text = []
      · rw [address_nil ht]; exact a_colon_nil hA h ht
      · cases hs : slashText s
        · rw [address_done hs ht]; exact a_colon hA h hs ht
        · rw [address_slash hs]; exact a_colon_file hA h hs
    rename_i h3; have h3 : c ≠ 58 := by simpa using h3
    split
    · rename_i hw
      split
      · rename_i ht; have ht : s.text = b! "Disassembly" := by simpa using ht
        have := a_dis hA hw ht
        simpa [append_eq, appText, ht] using this
      · rename_i hd
        split
        · rename_i hne; have hne : s.text ≠ [] := by simpa using hne
          cases hs : slashText s
          · rw [address_done hs hne]
            exact a_ws hA hw hs hne (by simpa using hd)
          · rw [address_slash hs]; exact a_ws_file hA hw hs
        · rename_i hne; exact a_same hA (.inr ⟨hw, by simpa using hne⟩)
    · rename_i hw; have hw := Bool.eq_false_of_ne hw
      simpa [append_eq, appText, hw] using a_app hA h1 h3 h2 hw
  rename_i hA; have hA := Bool.eq_false_of_ne hA
  split
  · rename_i hL; rw [append_eq]; exact l_app hA hL
  rename_i hL; have hL := Bool.eq_false_of_ne hL
  split
  · rename_i hO
    unfold OState.stepOpcodes
    simp only [hws]
    split
    · rename_i hw
      split
      · rename_i he; exact o_same hA hL hO hw (by simpa using he)
      rename_i he
      split
      · rename_i hl; rw [opcodes_eq]; exact o_split hA hL hO hw (by simpa using hl)
      · rename_i hl
        have he : s.text ≠ [] := by simpa using he
        simpa [append_eq, appText, he] using o_ws hA hL hO hw he (by simpa using hl)
    rename_i hw; have hw := Bool.eq_false_of_ne hw
    split
    · rename_i h; have h : c = 82 := by simpa using h
      have := o_reloc hA hL hO h
      simpa [append_eq, appText, hw] using this
    split
    · rename_i hx
      have := o_other hA hL hO (by simpa using hx) hw
      simpa [append_eq, appText, hw] using this
    · rename_i hx
      simpa [append_eq, appText, hw] using o_hex hA hL hO (by simpa using hx)
  rename_i hO; have hO := Bool.eq_false_of_ne hO
  split
  · rename_i hR
    unfold OState.stepRelocation
    split
    · rename_i h; exact r_tab hA hL hO hR (by simpa using h)
    · rename_i h; rw [append_eq]; exact r_app hA hL hO hR (by simpa using h)
  rename_i hR; have hR := Bool.eq_false_of_ne hR
  split
  · rename_i hS
    unfold OState.stepSection
    split
    · rename_i hn
      split
      · rename_i ht; exact s_name hA hL hO hR hS (by simpa using hn) (by simpa using ht)
      · rename_i ht; rw [append_eq]; exact s_app hA hL hO hR hS (by simpa using hn) (by simpa using ht)
    rename_i hn
    split
    · rename_i h; exact s_colon hA hL hO hR hS (by simpa using hn) (by simpa using h)
    · rename_i h; exact s_char hA hL hO hR hS (by simpa using hn) (by simpa using h)
  rename_i hS; have hS := Bool.eq_false_of_ne hS
  split
  · rename_i hF
    unfold OState.stepSourceRef
    split
    · rename_i h; exact f_colon hA hL hO hR hS hF (by simpa using h)
    rename_i h1
    split
    · rename_i h
      simp only [Bool.and_eq_true] at h
      rw [updateSourceRef_eq]; exact f_ws hA hL hO hR hS hF h.1 h.2
    · rename_i h; rw [append_eq]
      exact f_app hA hL hO hR hS hF (by simpa using h1) (by simpa using h)
  rename_i hF; have hF := Bool.eq_false_of_ne hF
  unfold OState.stepText
  split
  · rename_i hC; rw [append_eq]; exact t_app hA hL hO hR hS hF (fun h => by simp [hC] at h)
  rename_i hC; have hC := Bool.eq_false_of_ne hC
  split
  · rename_i h; have h : c = 35 := by simpa using h
    have := t_hash hA hL hO hR hS hF hC h
    subst h; simpa [append_eq, appText, isWhitespace] using this
  rename_i h1; have h1 : c ≠ 35 := by simpa using h1
  split
  · rename_i h; have h : c = 60 := by simpa using h
    have := t_lt hA hL hO hR hS hF hC h
    subst h; simpa [append_eq, appText, isWhitespace] using this
  rename_i h2; have h2 : c ≠ 60 := by simpa using h2
  split
  · rename_i hI
    split
    · rename_i h; have h : c = 62 := by simpa using h
      by_cases hn : s.currentLabelReference.name = []
      · have := t_ref hA hL hO hR hS hF hC hI (.inl h)
        subst h; simpa [append_eq, labelref_eq, appText, isWhitespace, refl', hn] using this
      · have := t_gt hA hL hO hR hS hF hC hI h hn
        subst h; simpa [append_eq, appText, isWhitespace, hn] using this
    rename_i h3; have h3 : c ≠ 62 := by simpa using h3
    split
    · rename_i h; have h : c = 43 := by simpa using h
      have := t_ref hA hL hO hR hS hF hC hI (.inr h)
      subst h; simpa [append_eq, labelref_eq, appText, isWhitespace, refl'] using this
    · rename_i h4; rw [append_eq]
      exact t_app hA hL hO hR hS hF (fun _ => ⟨h1, h2, fun _ => ⟨h3, by simpa using h4⟩⟩)
  · rename_i hI; rw [append_eq]
    exact t_app hA hL hO hR hS hF (fun _ => ⟨h1, h2, fun h => absurd h hI⟩)

/-- Case analysis of one character: coarser, without distinguishing where a character is just appended. -/
theorem step_cases {L : Locale} {f : Filter} {s : OState} {c : Byte} {P : OState → Prop}
    (same : P s)
    (app : P { s with text := appText s.text c })
    (a_slash : s.inAddress = true → c = c! '/' →
      P { s with inAddress := false, inSourceRef := true, text := s.text ++ [c] })
    (a_colon_nil : s.inAddress = true → c = c! ':' → s.text = [] →
      P { s with inAddress := false, inOpcodes := false })
    (a_colon_file : s.inAddress = true → c = c! ':' → slashText s = true → P (addrFile s s.inLabel))
    (a_colon : s.inAddress = true → c = c! ':' → slashText s = false → s.text ≠ [] →
      P (addrDone s s.inLabel))
    (a_dis : s.inAddress = true → isWhitespace c = true → s.text = b! "Disassembly" →
      P { s with inAddress := false, inSectionStart := true, currentSection := [],
                 text := s.text ++ [c] })
    (a_ws_file : s.inAddress = true → isWhitespace c = true → slashText s = true → P (addrFile s true))
    (a_ws : s.inAddress = true → isWhitespace c = true → slashText s = false → s.text ≠ [] →
      s.text ≠ b! "Disassembly" → P (addrDone s true))
    (o_split : s.inAddress = false → s.inLabel = false → s.inOpcodes = true → isWhitespace c = true →
      s.text.getLast? = some c! ' ' →
      P { s with
          currentLine := { s.currentLine with
            opcodes := if s.ignoreUntilNextLabel then s.currentLine.opcodes
              else s.currentLine.opcodes ++ splitOpcodes [] s.text }
          text := [], inOpcodes := false })
    (o_reloc : s.inAddress = false → s.inLabel = false → s.inOpcodes = true → c = c! 'R' →
      P { s with inRelocation := true, inOpcodes := false, text := s.text ++ b! "   " ++ [c] })
    (o_other : s.inAddress = false → s.inLabel = false → s.inOpcodes = true → isHex c = false →
      isWhitespace c = false → P { s with inOpcodes := false, text := s.text ++ [c] })
    (r_tab : s.inAddress = false → s.inLabel = false → s.inOpcodes = false → s.inRelocation = true →
      c = 9 → P { s with text := s.text ++ b! " " })
    (s_name : s.inAddress = false → s.inLabel = false → s.inOpcodes = false → s.inRelocation = false →
      s.inSectionStart = true → s.inSectionName = false → s.text = b! "Disassembly of section " →
      P { s with inSectionName := true, text := [], currentSection := [c] })
    (s_colon : s.inAddress = false → s.inLabel = false → s.inOpcodes = false → s.inRelocation = false →
      s.inSectionStart = true → s.inSectionName = true → c = c! ':' →
      P { s with skipRestOfTheLine := true, text := [] })
    (s_char : s.inAddress = false → s.inLabel = false → s.inOpcodes = false → s.inRelocation = false →
      s.inSectionStart = true → s.inSectionName = true → c ≠ c! ':' →
      P { s with currentSection := s.currentSection ++ [c] })
    (f_colon : s.inAddress = false → s.inLabel = false → s.inOpcodes = false → s.inRelocation = false →
      s.inSectionStart = false → s.inSourceRef = true → c = c! ':' →
      P { s with
          currentSourceRef := { file := s.text, isUsercode := !fileInLibrary s.text }
          currentFilename := s.text, text := [], inSourceRef := true, inSourceRefLineNumber := true })
    (f_ws : s.inAddress = false → s.inLabel = false → s.inOpcodes = false → s.inRelocation = false →
      s.inSectionStart = false → s.inSourceRef = true → s.inSourceRefLineNumber = true →
      isWhitespace c = true →
      P { s with currentSourceRef := srcUpd s, ub := s.ub || srcUb s, text := [],
                 skipRestOfTheLine := true })
    (t_hash : s.inAddress = false → s.inLabel = false → s.inOpcodes = false → s.inRelocation = false →
      s.inSectionStart = false → s.inSourceRef = false → s.inComment = false → c = c! '#' →
      P { s with inComment := true, text := s.text ++ [c] })
    (t_lt : s.inAddress = false → s.inLabel = false → s.inOpcodes = false → s.inRelocation = false →
      s.inSectionStart = false → s.inSourceRef = false → s.inComment = false → c = c! '<' →
      P { s with
          inSomethingWithALabel := true
          currentLabelReference := { s.currentLabelReference with
            startCol := (ustrlen L s.text + 1) % 65536, endCol := 0 }
          text := s.text ++ [c] })
    (t_gt : s.inAddress = false → s.inLabel = false → s.inOpcodes = false → s.inRelocation = false →
      s.inSectionStart = false → s.inSourceRef = false → s.inComment = false →
      s.inSomethingWithALabel = true → c = c! '>' → s.currentLabelReference.name ≠ [] →
      P { s with inSomethingWithALabel := false, text := s.text ++ [c] })
    (t_ref : s.inAddress = false → s.inLabel = false → s.inOpcodes = false → s.inRelocation = false →
      s.inSectionStart = false → s.inSourceRef = false → s.inComment = false →
      s.inSomethingWithALabel = true → (c = c! '>' ∨ c = c! '+') →
      P { s with
          inSomethingWithALabel := false
          currentLine := { s.currentLine with labels := refLabels L f s }
          currentLabelReference := {}
          text := s.text ++ [c] }) :
    P (s.step L f c) := by
  have app' : ¬ (isWhitespace c = true ∧ s.text = []) → P { s with text := s.text ++ [c] } := by
    intro h
    have : appText s.text c = s.text ++ [c] := by
      unfold appText; split
      · rename_i h2; simp at h2; exact absurd h2 h
      · rfl
    rw [this] at app; exact app
  refine step_cases' (P := P) (fun _ _ => same) (fun _ _ _ _ _ => same)
    (fun _ _ _ _ h => app' (by simp [h])) (fun _ _ => app) (fun _ _ _ _ h _ => app' (by simp [h]))
    (fun _ _ _ h => app' ?_) (fun _ _ _ _ _ => app) (fun _ _ _ _ _ _ _ => app)
    (fun _ _ _ _ _ _ _ _ => app) (fun _ _ _ _ _ _ _ => app) a_slash a_colon_nil a_colon_file a_colon a_dis
    a_ws_file a_ws o_split o_reloc o_other r_tab s_name s_colon s_char f_colon f_ws t_hash t_lt t_gt t_ref
  rintro ⟨hw, -⟩
  simp only [isWhitespace, Bool.or_eq_true, beq_iff_eq] at hw
  rcases hw with rfl | rfl <;> simp [isHex] at h <;> revert h <;> decide

theorem step_stopParsing (L : Locale) (f : Filter) (s : OState) (c : Byte) :
    (s.step L f c).stopParsing = s.stopParsing := by
  refine step_cases (P := fun s' => s'.stopParsing = s.stopParsing) ?_ ?_ ?_ ?_ ?_ ?_ ?_ ?_ ?_ ?_ ?_ ?_ ?_ ?_ ?_ ?_ ?_ ?_ ?_ ?_ ?_ ?_ <;> intros <;> rfl

end AsmParser
