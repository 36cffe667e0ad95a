/-
Helper lemmas for C73: how binary mode reads any line (`Verif/Spec/Decode.lean`).
-/
import Verif.Proofs.ObjPages
import Verif.Spec.Decode

namespace AsmParser

/-- The part of the state that matters at the end of a line. -/
structure OView where
  text : Str
  line : AsmLine
  lab : Bool
  srcl : Bool
  sect : Str
  source : AsmSource
  ign : Bool
  opened : Option Nat
  name : Str

def OState.view (s : OState) : OView :=
  ⟨s.text, s.currentLine, s.inLabel, s.inSourceRefLineNumber, s.currentSection, s.currentSourceRef, s.ignoreUntilNextLabel,
    cond s.inSomethingWithALabel (some s.currentLabelReference.startCol) none, s.currentLabelReference.name⟩

/-- How numbers and columns are computed. -/
def theReading (L : Locale) : Reading where
  address w := (addrLoop w.reverse {}).addr
  number n := if atoi n < -2147483648 ∨ 2147483647 < atoi n then 0 else if atoi n > 0 then atoi n else 0
  chars := ustrlen L

variable {L : Locale} {f : Filter} {s : OState}

theorem theReading_chars : (theReading L).chars = ustrlen L := rfl

theorem codeText_nil (t : Str) : codeText t [] = t := by
  unfold codeText; split
  · simp_all [dropBlanks]
  · simp

theorem appText_eq (t : Str) (c : Byte) : appText t c = if t = [] && isWhitespace c then [] else t ++ [c] := by
  unfold appText
  cases t <;> simp

theorem codeText_app (t : Str) (c : Byte) (r : Str) : codeText (appText t c) r = codeText t (c :: r) := by
  rw [appText_eq]
  unfold codeText
  by_cases ht : t = []
  · subst ht
    by_cases hc : isWhitespace c = true <;> simp [hc, dropBlanks]
  · simp [ht]

theorem readRefs_cons (R : Reading) (drop : Str → Bool) (op : Option Nat) (t : Str) (c : Byte) (r : Str) :
    readRefs R drop op t (c :: r) =
      if c = c! '#' then ([], op)
      else if c = c! '<' then readRefs R drop (some ((R.chars t + 1) % 65536)) (appText t c) r
      else match op with
        | some k =>
          if c = c! '>' ∨ c = c! '+' then
            let more := readRefs R drop none (appText t c) r
            ((if t.length < k || drop (t.drop k) then [] else [⟨t.drop k, k, R.chars t % 65536⟩]) ++ more.1, more.2)
          else readRefs R drop op (appText t c) r
        | none => readRefs R drop op (appText t c) r := by
  rw [appText_eq]; rfl

/-! ### Text -/

structure Txt (s : OState) : Prop where
  addr : s.inAddress = false
  lab : s.inLabel = false
  opc : s.inOpcodes = false
  rel : s.inRelocation = false
  secs : s.inSectionStart = false
  srcr : s.inSourceRef = false
  skip : s.skipRestOfTheLine = false

theorem com_read (h : Txt s) (hc : s.inComment = true) {w : Str} (hw : (13 : Byte) ∉ w) :
    (s.read L f w).view = { s.view with text := codeText s.text w } := by
  induction w generalizing s with
  | nil => simp [read_nil, codeText_nil]; rfl
  | cons c w ih =>
    simp only [List.mem_cons, not_or] at hw
    obtain ⟨a1, a2, a3, a4, a5, a6, a7⟩ := h
    rw [read_cons, read_one (Ne.symm hw.1) a7]
    have e : s.step L f c = { s with text := appText s.text c } := by
      simp [OState.step, a1, a2, a3, a4, a5, a6, OState.stepText, hc, append_eq]
    rw [e]
    refine Eq.trans (ih ?_ ?_ hw.2) ?_
    · exact ⟨a1, a2, a3, a4, a5, a6, a7⟩
    · exact hc
    simp [codeText_app, OState.view]

theorem txt_read (h : Txt s) (hc : s.inComment = false) (hn : s.currentLabelReference.name = []) {w : Str}
    (hw : (13 : Byte) ∉ w) :
    let R := readRefs (theReading L) (fun n => s.ignoreUntilNextLabel || shouldIgnoreFunction n f) s.view.opened s.text w
    (s.read L f w).view = { s.view with
      text := codeText s.text w, line := { s.view.line with labels := s.view.line.labels ++ R.1 }, opened := R.2 } := by
  induction w generalizing s with
  | nil => simp [read_nil, codeText_nil, readRefs, OState.view]
  | cons c w ih =>
    simp only [List.mem_cons, not_or] at hw
    have hT := h
    obtain ⟨a1, a2, a3, a4, a5, a6, a7⟩ := h
    rw [read_cons, read_one (Ne.symm hw.1) a7]
    intro R
    by_cases h1 : c = c! '#'
    · subst h1
      have e : s.step L f (c! '#') = { s with inComment := true, text := appText s.text c! '#' } := by
        simp [OState.step, a1, a2, a3, a4, a5, a6, OState.stepText, hc, append_eq]
      rw [e]; refine Eq.trans (com_read ?_ ?_ hw.2) ?_
      · exact ⟨a1, a2, a3, a4, a5, a6, a7⟩
      · rfl
      simp [codeText_app, OState.view, R, readRefs_cons]
    by_cases h2 : c = c! '<'
    · subst h2
      have e : s.step L f (c! '<') = { s with
          inSomethingWithALabel := true
          currentLabelReference := { s.currentLabelReference with startCol := (ustrlen L s.text + 1) % 65536, endCol := 0 }
          text := appText s.text c! '<' } := by
        simp [OState.step, a1, a2, a3, a4, a5, a6, OState.stepText, hc, append_eq]
      rw [e]
      refine Eq.trans (ih ?_ ?_ ?_ hw.2) ?_
      · exact ⟨a1, a2, a3, a4, a5, a6, a7⟩
      · exact hc
      · exact hn
      simp [codeText_app, OState.view, R, readRefs_cons, theReading_chars]
    cases hop : s.inSomethingWithALabel
    · have e : s.step L f c = { s with text := appText s.text c } := by
        simp [OState.step, a1, a2, a3, a4, a5, a6, OState.stepText, hc, append_eq, h1, h2, hop]
      rw [e]
      refine Eq.trans (ih ?_ ?_ ?_ hw.2) ?_
      · exact ⟨a1, a2, a3, a4, a5, a6, a7⟩
      · exact hc
      · exact hn
      simp [codeText_app, OState.view, R, readRefs_cons, hop, h1, h2]
    · by_cases h3 : c = c! '>' ∨ c = c! '+'
      · have e : s.step L f c = { s with
            inSomethingWithALabel := false
            currentLine := { s.currentLine with labels := refLabels L f s }
            currentLabelReference := {}
            text := appText s.text c } := by
          have lr : s.step L f c = ({ s with inSomethingWithALabel := false }.labelref L f).append c := by
            rcases h3 with rfl | rfl <;> simp [OState.step, a1, a2, a3, a4, a5, a6, OState.stepText, hc, hop, hn]
          rw [lr, labelref_eq, append_eq]
          simp [refLabels]
        rw [e]
        refine Eq.trans (ih ?_ ?_ ?_ hw.2) ?_
        · exact ⟨a1, a2, a3, a4, a5, a6, a7⟩
        · exact hc
        · exact rfl
        have hl : refLabels L f s = s.currentLine.labels ++
            (if s.text.length < s.currentLabelReference.startCol || (s.ignoreUntilNextLabel ||
              shouldIgnoreFunction (s.text.drop s.currentLabelReference.startCol) f) then []
            else [⟨s.text.drop s.currentLabelReference.startCol, s.currentLabelReference.startCol, ustrlen L s.text % 65536⟩]) := by
          unfold refLabels
          by_cases i1 : s.ignoreUntilNextLabel = true <;> by_cases i2 : s.text.length < s.currentLabelReference.startCol <;>
            by_cases i3 : shouldIgnoreFunction (s.text.drop s.currentLabelReference.startCol) f = true <;> simp [i1, i2, i3]
        simp only [OState.view, codeText_app, R, readRefs_cons, h1, h2, hop, h3, hl, ↓reduceIte, hn,
          theReading_chars, List.append_assoc]
        simp
      · have e : s.step L f c = { s with text := appText s.text c } := by
          simp only [not_or] at h3
          simp [OState.step, a1, a2, a3, a4, a5, a6, OState.stepText, hc, append_eq, h1, h2, hop, h3]
        rw [e]
        refine Eq.trans (ih ?_ ?_ ?_ hw.2) ?_
        · exact ⟨a1, a2, a3, a4, a5, a6, a7⟩
        · exact hc
        · exact hn
        simp only [OState.view, codeText_app, R, readRefs_cons, h1, h2, hop, h3, ↓reduceIte, cond_true]

/-! ### Relocations, bytes -/

theorem rel_read (h1 : s.inAddress = false) (h2 : s.inLabel = false) (h3 : s.inOpcodes = false) (h4 : s.inRelocation = true)
    (h5 : s.skipRestOfTheLine = false) (ht : s.text ≠ []) {w : Str} (hw : (13 : Byte) ∉ w) :
    (s.read L f w).view = { s.view with text := s.text ++ w.map fun c => if c = 9 then 32 else c } := by
  induction w generalizing s with
  | nil => simp [read_nil]; rfl
  | cons c w ih =>
    simp only [List.mem_cons, not_or] at hw
    rw [read_cons, read_one (Ne.symm hw.1) h5]
    have e : s.step L f c = { s with text := s.text ++ [if c = 9 then 32 else c] } := by
      by_cases hc : c = 9
      · subst hc; simp [OState.step, h1, h2, h3, h4, OState.stepRelocation]
      · simp [OState.step, h1, h2, h3, h4, OState.stepRelocation, hc, append_eq, appText, ht]
    rw [e]
    refine Eq.trans (ih ?_ ?_ ?_ ?_ ?_ ?_ hw.2) ?_
    · exact h1
    · exact h2
    · exact h3
    · exact h4
    · exact h5
    · simp
    · simp [OState.view]

/-- Splitting at spaces. -/
def spaceSplit (t : Str) : List Str :=
  t.foldr (fun c ws => if c = c! ' ' then [] :: ws else match ws with | [] => [[c]] | w :: ws => (c :: w) :: ws) [[]]

theorem spaceWords_def (t : Str) : spaceWords t = (spaceSplit t).filter (· ≠ []) := rfl

theorem spaceSplit_cons (c : Byte) (t : Str) :
    spaceSplit (c :: t) = if c = c! ' ' then [] :: spaceSplit t
      else match spaceSplit t with | [] => [[c]] | w :: ws => (c :: w) :: ws := rfl

theorem spaceSplit_ne (t : Str) : ∃ w ws, spaceSplit t = w :: ws := by
  cases t with
  | nil => exact ⟨[], [], rfl⟩
  | cons c t =>
    rw [spaceSplit_cons]
    split
    · exact ⟨_, _, rfl⟩
    · split <;> exact ⟨_, _, rfl⟩

theorem splitOpcodes_split (t : Str) : ∀ cur w ws, spaceSplit t = w :: ws → (t.getLast? = some c! ' ' ∨ t = [] ∧ cur = []) →
    splitOpcodes cur t = ((cur ++ w) :: ws).filter (· ≠ []) := by
  induction t with
  | nil =>
    intro cur w ws h hl
    rcases hl with hl | ⟨_, rfl⟩
    · simp at hl
    · cases h; rfl
  | cons c t ih =>
    intro cur w ws h hl
    obtain ⟨w', ws', ht⟩ := spaceSplit_ne t
    have hl' : (c :: t).getLast? = some c! ' ' := by rcases hl with h | h; exact h; exact absurd h.1 (by simp)
    rw [spaceSplit_cons, ht] at h
    rw [splitOpcodes]
    by_cases hc : c = c! ' '
    · subst hc
      simp only [if_true, List.cons.injEq] at h
      obtain ⟨rfl, rfl⟩ := h
      have hn : t.getLast? = some c! ' ' ∨ t = [] ∧ ([] : Str) = [] := by
        cases t with
        | nil => exact .inr ⟨rfl, rfl⟩
        | cons a t => left; simpa [List.getLast?_cons_cons] using hl'
      have := ih [] w' ws' ht hn
      by_cases hcur : cur = []
      · simp [hcur, this]
      · simp [hcur, this]
    · simp only [hc, if_false, List.cons.injEq] at h
      obtain ⟨rfl, rfl⟩ := h
      have hn : t.getLast? = some c! ' ' := by
        cases t with
        | nil => simp at hl'; exact absurd hl' hc
        | cons a t => simpa [List.getLast?_cons_cons] using hl'
      have := ih (cur ++ [c]) w' ws' ht (.inl hn)
      simp [hc, this]

theorem splitOpcodes_words {t : Str} (h : t.getLast? = some c! ' ') : splitOpcodes [] t = spaceWords t := by
  obtain ⟨w, ws, hw⟩ := spaceSplit_ne t
  rw [splitOpcodes_split t [] w ws hw (.inl h), spaceWords_def, hw]; rfl

structure Opc (s : OState) : Prop where
  addr : s.inAddress = false
  lab : s.inLabel = false
  opc : s.inOpcodes = true
  rel : s.inRelocation = false
  secs : s.inSectionStart = false
  srcr : s.inSourceRef = false
  skip : s.skipRestOfTheLine = false
  com : s.inComment = false
  name : s.currentLabelReference.name = []
  ops : s.currentLine.opcodes = []

theorem opc_read (h : Opc s) {w : Str} (hw : (13 : Byte) ∉ w) :
    let B := readBytes s.text w
    let R := readRefs (theReading L) (fun n => s.ignoreUntilNextLabel || shouldIgnoreFunction n f) s.view.opened B.2.1 B.2.2
    (s.read L f w).view = { s.view with
      text := codeText B.2.1 B.2.2
      line := { s.view.line with
        opcodes := if s.ignoreUntilNextLabel then [] else B.1, labels := s.view.line.labels ++ R.1 }
      opened := R.2 } := by
  induction w generalizing s with
  | nil =>
    intro B R
    simp [read_nil, B, R, readBytes, codeText_nil, readRefs, OState.view, ← h.ops]
  | cons c w ih =>
    simp only [List.mem_cons, not_or] at hw
    obtain ⟨a1, a2, a3, a4, a5, a6, a7, a8, a9, a10⟩ := h
    rw [read_cons, read_one (Ne.symm hw.1) a7]
    intro B R
    have hws : (c == c! ' ' || c == 9) = isWhitespace c := rfl
    by_cases h1 : isWhitespace c = true
    · by_cases ht : s.text = []
      · have e : s.step L f c = s := by
          simp [OState.step, a1, a2, a3, OState.stepOpcodes, hws, h1, ht]
        have hB : B = readBytes s.text w := by simp [B, readBytes, h1, ht]
        rw [e]
        simp only [R, hB]
        exact ih ⟨a1, a2, a3, a4, a5, a6, a7, a8, a9, a10⟩ hw.2
      by_cases hl : s.text.getLast? = some c! ' '
      · have e : s.step L f c = { s with
            currentLine := { s.currentLine with
              opcodes := if s.ignoreUntilNextLabel then s.currentLine.opcodes
                else s.currentLine.opcodes ++ splitOpcodes [] s.text }
            text := [], inOpcodes := false } := by
          rw [← opcodes_eq]
          simp [OState.step, a1, a2, a3, OState.stepOpcodes, hws, h1, ht, hl]
        have hB : B = (spaceWords s.text, [], w) := by simp [B, readBytes, h1, ht, hl]
        rw [e]
        refine Eq.trans (txt_read ?_ ?_ ?_ hw.2) ?_
        · exact ⟨a1, a2, rfl, a4, a5, a6, a7⟩
        · exact a8
        · exact a9
        · simp [R, hB, OState.view, a10, splitOpcodes_words hl]
      · have e : s.step L f c = { s with text := s.text ++ [c] } := by
          simp [OState.step, a1, a2, a3, OState.stepOpcodes, hws, h1, ht, hl, append_eq, appText]
        have hB : B = readBytes (s.text ++ [c]) w := by simp [B, readBytes, h1, ht, hl]
        rw [e]
        simp only [R, hB]
        exact ih (s := { s with text := s.text ++ [c] }) ⟨a1, a2, a3, a4, a5, a6, a7, a8, a9, a10⟩ hw.2
    by_cases h2 : c = c! 'R'
    · subst h2
      have e : s.step L f (c! 'R') = { s with inRelocation := true, inOpcodes := false, text := s.text ++ b! "   R" } := by
        simp [OState.step, a1, a2, a3, OState.stepOpcodes, append_eq, appText, isWhitespace]
      have hB : B = ([], s.text ++ b! "   R" ++ w.map fun c => if c = 9 then 32 else c, []) := by
        simp [B, readBytes, isWhitespace]
      rw [e]
      refine Eq.trans (rel_read ?_ ?_ ?_ ?_ ?_ ?_ hw.2) ?_
      · exact a1
      · exact a2
      · rfl
      · rfl
      · exact a7
      · simp
      · simp [R, hB, OState.view, codeText_nil, readRefs, ← a10]
    by_cases h3 : isHex c = true
    · have e : s.step L f c = { s with text := s.text ++ [c] } := by
        simp [OState.step, a1, a2, a3, OState.stepOpcodes, hws, h1, h2, h3, append_eq, appText]
      have hB : B = readBytes (s.text ++ [c]) w := by simp [B, readBytes, h1, h2, h3]
      rw [e]
      simp only [R, hB]
      exact ih (s := { s with text := s.text ++ [c] }) ⟨a1, a2, a3, a4, a5, a6, a7, a8, a9, a10⟩ hw.2
    · have e : s.step L f c = { s with inOpcodes := false, text := s.text ++ [c] } := by
        simp [OState.step, a1, a2, a3, OState.stepOpcodes, hws, h1, h2, h3, append_eq, appText]
      have hB : B = ([], s.text ++ [c], w) := by simp [B, readBytes, h1, h2, h3]
      rw [e]
      refine Eq.trans (txt_read ?_ ?_ ?_ hw.2) ?_
      · exact ⟨a1, a2, rfl, a4, a5, a6, a7⟩
      · exact a8
      · exact a9
      · simp [R, hB, OState.view, ← a10]

/-! ### Titles, sections, file names -/

theorem lab_read (h1 : s.inAddress = false) (h2 : s.inLabel = true) (h3 : s.skipRestOfTheLine = false) {w : Str}
    (hw : (13 : Byte) ∉ w) : (s.read L f w).view = { s.view with text := codeText s.text w } := by
  induction w generalizing s with
  | nil => simp [read_nil, codeText_nil]; rfl
  | cons c w ih =>
    simp only [List.mem_cons, not_or] at hw
    rw [read_cons, read_one (Ne.symm hw.1) h3]
    have e : s.step L f c = { s with text := appText s.text c } := by simp [OState.step, h1, h2, append_eq]
    rw [e]
    refine Eq.trans (ih ?_ ?_ ?_ hw.2) ?_
    · exact h1
    · exact h2
    · exact h3
    · simp [codeText_app, OState.view]

structure Sec (s : OState) : Prop where
  addr : s.inAddress = false
  lab : s.inLabel = false
  opc : s.inOpcodes = false
  rel : s.inRelocation = false
  secs : s.inSectionStart = true
  skip : s.skipRestOfTheLine = false

theorem secn_read (h : Sec s) (hn : s.inSectionName = true) (ht : s.text = []) {w : Str} (hw : (13 : Byte) ∉ w) :
    (s.read L f w).view = { s.view with sect := s.currentSection ++ w.takeWhile (· ≠ c! ':') } := by
  induction w generalizing s with
  | nil => simp [read_nil, OState.view]
  | cons c w ih =>
    simp only [List.mem_cons, not_or] at hw
    obtain ⟨a1, a2, a3, a4, a5, a6⟩ := h
    rw [read_cons, read_one (Ne.symm hw.1) a6]
    by_cases hc : c = c! ':'
    · have e : s.step L f c = { s with skipRestOfTheLine := true, text := [] } := by
        simp [OState.step, a1, a2, a3, a4, a5, OState.stepSection, hn, hc]
      rw [e, read_skip rfl]
      simp [OState.view, hc, ht]
    · have e : s.step L f c = { s with currentSection := s.currentSection ++ [c] } := by
        simp [OState.step, a1, a2, a3, a4, a5, OState.stepSection, hn, hc]
      rw [e]
      refine Eq.trans (ih ?_ ?_ ?_ hw.2) ?_
      · exact ⟨a1, a2, a3, a4, a5, a6⟩
      · exact hn
      · exact ht
      · simp [OState.view, hc]

theorem sec_read (h : Sec s) (hn : s.inSectionName = false) (hs : s.currentSection = []) (ht : s.text ≠ [])
    (hp : s.text = b! "Disassembly of section " ∨ ¬ b! "Disassembly of section " <+: s.text) {w : Str} (hw : (13 : Byte) ∉ w) :
    (s.read L f w).view = match sectionLine (s.text ++ w) with
      | .section n => { s.view with text := [], sect := n }
      | _ => { s.view with text := s.text ++ w } := by
  induction w generalizing s with
  | nil =>
    have : sectionLine (s.text ++ []) = .noSection s.text := by
      rw [List.append_nil]
      unfold sectionLine
      split
      · rename_i h1 h2
        rcases hp with hp | hp
        · rw [hp] at h2; cases h2
        · exact absurd (List.isPrefixOf_iff_prefix.1 h1) hp
      · rfl
    rw [this]
    simp [read_nil]
    rfl
  | cons c w ih =>
    simp only [List.mem_cons, not_or] at hw
    have hS := h
    obtain ⟨a1, a2, a3, a4, a5, a6⟩ := h
    rw [read_cons, read_one (Ne.symm hw.1) a6]
    by_cases he : s.text = b! "Disassembly of section "
    · have e : s.step L f c = { s with inSectionName := true, text := [], currentSection := [c] } := by
        simp [OState.step, a1, a2, a3, a4, a5, OState.stepSection, hn, he]
      have e2 : sectionLine (s.text ++ c :: w) = .section (c :: w.takeWhile (· ≠ c! ':')) := by
        rw [he]; simp [sectionLine]
      rw [e, e2]
      refine Eq.trans (secn_read ?_ ?_ ?_ hw.2) ?_
      · exact ⟨a1, a2, a3, a4, a5, a6⟩
      · rfl
      · rfl
      · simp [OState.view]
    · have e : s.step L f c = { s with text := s.text ++ [c] } := by
        simp [OState.step, a1, a2, a3, a4, a5, OState.stepSection, hn, he, append_eq, appText, ht]
      rw [e]
      refine Eq.trans (ih ?_ ?_ ?_ ?_ ?_ hw.2) ?_
      · exact ⟨a1, a2, a3, a4, a5, a6⟩
      · exact hn
      · exact hs
      · simp
      · by_cases hq : b! "Disassembly of section " <+: s.text ++ [c]
        · left
          rcases hp with hp | hp
          · exact absurd hp he
          · rcases List.prefix_concat_iff.1 hq with h | h
            · exact h.symm
            · exact absurd h hp
        · exact .inr hq
      · simp only [List.append_assoc, List.singleton_append]
        rfl

structure Src (s : OState) : Prop where
  addr : s.inAddress = false
  lab : s.inLabel = false
  opc : s.inOpcodes = false
  rel : s.inRelocation = false
  secs : s.inSectionStart = false
  srcr : s.inSourceRef = true
  skip : s.skipRestOfTheLine = false

theorem srcUpd_number {s : OState} {file : Str} (h : s.currentSourceRef = { file, isUsercode := !inLibrary file }) :
    srcUpd s = { file, line := (theReading L).number s.text, isUsercode := !inLibrary file } := by
  unfold srcUpd srcUb theReading
  rw [h]
  by_cases h1 : atoi s.text < -2147483648 ∨ 2147483647 < atoi s.text
  · simp [h1]
  · by_cases h2 : 0 < atoi s.text <;> simp [h1, h2]

theorem num_read (h : Src s) (hl : s.inSourceRefLineNumber = true) {file : Str}
    (hf : s.currentSourceRef = { file, isUsercode := !inLibrary file }) {w : Str} (hw : (13 : Byte) ∉ w) :
    ∃ file' n ended, readLineNo file s.text w = .source file' n ended ∧
    (s.read L f w).view = { s.view with
      text := if ended then [] else n
      source := { file := file', line := if ended then (theReading L).number n else 0, isUsercode := !inLibrary file' } } := by
  induction w generalizing s file with
  | nil => exact ⟨file, s.text, false, rfl, by simp [read_nil, OState.view, hf]⟩
  | cons c w ih =>
    simp only [List.mem_cons, not_or] at hw
    obtain ⟨a1, a2, a3, a4, a5, a6, a7⟩ := h
    rw [read_cons, read_one (Ne.symm hw.1) a7]
    by_cases h1 : c = c! ':'
    · have e : s.step L f c = { s with
          currentSourceRef := { file := s.text, isUsercode := !fileInLibrary s.text }
          currentFilename := s.text, text := [], inSourceRef := true, inSourceRefLineNumber := true } := by
        simp [OState.step, a1, a2, a3, a4, a5, a6, OState.stepSourceRef, h1, OState.doFileCheck]
      rw [e]
      obtain ⟨f', n, en, g1, g2⟩ := ih (s := { s with
          currentSourceRef := { file := s.text, isUsercode := !fileInLibrary s.text }
          currentFilename := s.text, text := [], inSourceRef := true, inSourceRefLineNumber := true }) (file := s.text)
          ⟨a1, a2, a3, a4, a5, rfl, a7⟩ rfl (by simp [fileInLibrary_eq]) hw.2
      refine ⟨f', n, en, by simpa [readLineNo, h1] using g1, g2.trans ?_⟩
      simp [OState.view, hl]
    by_cases h2 : isWhitespace c = true
    · have e : s.step L f c = { s with
          currentSourceRef := srcUpd s, ub := s.ub || srcUb s, text := [], skipRestOfTheLine := true } := by
        simp [OState.step, a1, a2, a3, a4, a5, a6, OState.stepSourceRef, h1, h2, hl, updateSourceRef_eq]
      rw [e, read_skip rfl]
      refine ⟨file, s.text, true, by simp [readLineNo, h1, h2], ?_⟩
      simp [OState.view, srcUpd_number (L := L) hf]
    · have e : s.step L f c = { s with text := s.text ++ [c] } := by
        simp [OState.step, a1, a2, a3, a4, a5, a6, OState.stepSourceRef, h1, h2, append_eq, appText]
      rw [e]
      obtain ⟨f', n, en, g1, g2⟩ := ih (s := { s with text := s.text ++ [c] }) (file := file)
        ⟨a1, a2, a3, a4, a5, a6, a7⟩ hl hf hw.2
      refine ⟨f', n, en, by simpa [readLineNo, h1, h2] using g1, g2.trans ?_⟩
      simp [OState.view]

theorem path_read (h : Src s) (hl : s.inSourceRefLineNumber = false) (ht : s.text ≠ []) (hc : c! ':' ∉ s.text) {w : Str}
    (hw : (13 : Byte) ∉ w) :
    (sourceLine (s.text ++ w) = .code none [] (s.text ++ w) [] ∧ (s.read L f w).view = { s.view with text := s.text ++ w }) ∨
    ∃ file' n ended, sourceLine (s.text ++ w) = .source file' n ended ∧
    (s.read L f w).view = { s.view with
      srcl := true
      text := if ended then [] else n
      source := { file := file', line := if ended then (theReading L).number n else 0, isUsercode := !inLibrary file' } } := by
  induction w generalizing s with
  | nil =>
    left
    refine ⟨?_, by simp [read_nil]; rfl⟩
    have : (s.text ++ []).dropWhile (fun x => decide (x ≠ c! ':')) = [] := by
      have := List.dropWhile_append_of_pos (p := fun x => decide (x ≠ c! ':')) (l₁ := s.text) (l₂ := []) (by
        intro x hx
        simpa using fun h : x = c! ':' => hc (h ▸ hx))
      simpa using this
    unfold sourceLine
    rw [this]
  | cons c w ih =>
    simp only [List.mem_cons, not_or] at hw
    obtain ⟨a1, a2, a3, a4, a5, a6, a7⟩ := h
    rw [read_cons, read_one (Ne.symm hw.1) a7]
    by_cases h1 : c = c! ':'
    · right
      have e : s.step L f c = { s with
          currentSourceRef := { file := s.text, isUsercode := !fileInLibrary s.text }
          currentFilename := s.text, text := [], inSourceRef := true, inSourceRefLineNumber := true } := by
        simp [OState.step, a1, a2, a3, a4, a5, a6, OState.stepSourceRef, h1, OState.doFileCheck]
      rw [e]
      obtain ⟨f', n, en, g1, g2⟩ := num_read (L := L) (f := f) (s := { s with
          currentSourceRef := { file := s.text, isUsercode := !fileInLibrary s.text }
          currentFilename := s.text, text := [], inSourceRef := true, inSourceRefLineNumber := true }) (file := s.text)
          ⟨a1, a2, a3, a4, a5, rfl, a7⟩ rfl (by simp [fileInLibrary_eq]) hw.2
      refine ⟨f', n, en, ?_, g2.trans ?_⟩
      · have hall : ∀ x ∈ s.text, decide (x ≠ c! ':') = true := by
          intro x hx
          simpa using fun h : x = c! ':' => hc (h ▸ hx)
        have d1 : (s.text ++ c :: w).dropWhile (fun x => decide (x ≠ c! ':')) = c :: w := by
          rw [List.dropWhile_append_of_pos hall]; simp [h1]
        have d2 : (s.text ++ c :: w).takeWhile (fun x => decide (x ≠ c! ':')) = s.text := by
          rw [List.takeWhile_append_of_pos hall]; simp [h1]
        unfold sourceLine
        rw [d1, d2]
        exact g1
      · simp [OState.view]
    · have e : s.step L f c = { s with text := s.text ++ [c] } := by
        simp [OState.step, a1, a2, a3, a4, a5, a6, OState.stepSourceRef, h1, hl, append_eq, appText, ht]
      rw [e]
      have := ih (s := { s with text := s.text ++ [c] }) ⟨a1, a2, a3, a4, a5, a6, a7⟩ hl (by simp)
        (by simp only [List.mem_append, List.mem_singleton, not_or]; exact ⟨hc, fun h => h1 h.symm⟩) hw.2
      simpa [OState.view] using this

end AsmParser
