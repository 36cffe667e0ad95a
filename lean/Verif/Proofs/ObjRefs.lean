/-
Helper lemmas: lifting invariants of the objdump parser's state to the output lines; label references (C07),
opcode tokens (C15).
-/
import Verif.Proofs.ObjLines

namespace AsmParser

/-- The state changes at the end of a line other than `commonReset`. -/
def OState.endUpd (s : OState) (u i st : Bool) (pl : Str) : OState :=
  { s with ub := u, ignoreUntilNextLabel := i, stopParsing := st, previousLabel := pl }

/-- The line output for a function header. -/
def OState.labelLine (s : OState) : AsmLine :=
  { s.currentLine with
    text := labelText s.text ++ b! ":", sect := s.currentSection,
    label := labelText s.text, isLabel := true, source := s.currentSourceRef }

/-- Lift an invariant `I` that relates the input read so far and the state to a property `P` of all output lines. -/
theorem lines_inv_in {L : Locale} {f : Filter} {I : Str → OState → Prop} {P : AsmLine → Prop} (whole : Str)
    (h0 : I [] (start f).st)
    (hstep : ∀ t s c, t ++ [c] <+: whole → Modes s → I t s → s.stopParsing = false → s.skipRestOfTheLine = false →
      c ≠ 10 → c ≠ 13 → I (t ++ [c]) (s.step L f c))
    (hsame : ∀ t s c, t ++ [c] <+: whole → Modes s → I t s → (c = 13 ∨ s.skipRestOfTheLine = true ∧ c ≠ 10 ∨ s.stopParsing = true) →
      I (t ++ [c]) s)
    (hreset : ∀ t s u i st pl, t ++ [10] <+: whole → Modes s → I t s → s.stopParsing = false → I (t ++ [10]) (s.endUpd u i st pl).commonReset)
    (hsrc : ∀ t s, t ++ [10] <+: whole → Modes s → I t s → s.stopParsing = false → s.ignoreUntilNextLabel = false → s.inSourceRefLineNumber = true →
      I (t ++ [10]) s.updateSourceRefLineNumber.commonReset)
    (hmark : P markerLine)
    (hline : ∀ t s, t ++ [10] <+: whole → Modes s → I t s → s.inLabel = false → s.ignoreUntilNextLabel = false →
      s.inSourceRefLineNumber = false → s.text ≠ [] → P s.finishLine)
    (hlab : ∀ t s, t ++ [10] <+: whole → Modes s → I t s → s.inLabel = true → s.text ≠ [] →
      shouldIgnoreFunction (labelText s.text) f = false → P s.labelLine) :
    I whole (objParse L f whole).st ∧ ∀ l ∈ (objParse L f whole).lines, P l := by
  have app : ∀ {ls : List AsmLine} {a : AsmLine}, (∀ l ∈ ls, P l) → P a → ∀ l ∈ ls ++ [a], P l := by
    intro ls a h1 h2 l hl
    simp only [List.mem_append, List.mem_singleton] at hl
    rcases hl with hl | rfl
    · exact h1 l hl
    · exact h2
  suffices h : ∀ s, s <+: whole → I s (objParse L f s).st ∧ ∀ l ∈ (objParse L f s).lines, P l from
    h whole (List.prefix_refl _)
  intro s hpre
  induction s using snoc_induct with
  | nil => exact ⟨h0, by simp [objParse_eq, start]⟩
  | snoc t c h =>
    have h := h ((List.prefix_append t [c]).trans hpre)
    have hm := Modes.parse L f t
    have hf := parse_filter L f t
    rw [objParse_append]
    simp only [List.foldl_cons, List.foldl_nil]
    generalize objParse L f t = p at *
    by_cases hs : p.st.stopParsing = true
    · rw [feed_stop hs]; exact ⟨hsame _ _ _ hpre hm h.1 (.inr (.inr hs)), h.2⟩
    have hs := Bool.eq_false_of_ne hs
    by_cases hc10 : c = 10
    · subst hc10
      have hr : ∀ u i st pl, I (t ++ [10]) (p.st.endUpd u i st pl).commonReset := fun u i st pl => hreset _ _ _ _ _ _ hpre hm h.1 hs
      have : p.feed L 10 = p.eol := by simp [OParser.feed, hs]
      rw [this]
      refine eol_cases (P := fun p => I (t ++ [10]) p.st ∧ ∀ l ∈ p.lines, P l) ?_ ?_ ?_ ?_ ?_ ?_ ?_ ?_
      · intros; exact ⟨hr p.st.ub p.st.ignoreUntilNextLabel p.st.stopParsing p.st.previousLabel, h.2⟩
      · intro _ h1 h2; exact ⟨hsrc _ _ hpre hm h.1 hs h1 h2, h.2⟩
      · intro h1 h2 h3 h4 _
        exact ⟨hr p.st.ub p.st.ignoreUntilNextLabel p.st.stopParsing p.st.previousLabel, app h.2 (hline _ _ hpre hm h.1 h1 h2 h3 h4)⟩
      · intros
        exact ⟨hr p.st.ub p.st.ignoreUntilNextLabel true p.st.previousLabel, app h.2 hmark⟩
      · intros
        exact ⟨hr p.prune.st.ub true p.st.stopParsing p.st.previousLabel, fun l hl => h.2 l (prune_mem hl)⟩
      · intro hl _ _ hsrc
        have := (hm.lbl hl).2.2.2.2.1
        rw [hsrc] at this; cases this
      · intro h1 h2 h3 h4 _
        exact ⟨hr p.prune.st.ub false p.st.stopParsing _, app (fun l hl => h.2 l (prune_mem hl)) (hlab _ _ hpre hm h.1 h1 h2 (hf ▸ h3))⟩
      · intros
        exact ⟨hr p.prune.st.ub false true _, app (fun l hl => h.2 l (prune_mem hl)) hmark⟩
    · by_cases hc13 : c = 13
      · subst hc13; rw [feed_cr]; exact ⟨hsame _ _ _ hpre hm h.1 (.inl rfl), h.2⟩
      · by_cases hk : p.st.skipRestOfTheLine = true
        · have : p.feed L c = p := by simp [OParser.feed, hs, hk, hc10]
          rw [this]; exact ⟨hsame _ _ _ hpre hm h.1 (.inr (.inl ⟨hk, hc10⟩)), h.2⟩
        · have hk := Bool.eq_false_of_ne hk
          have : p.feed L c = { p with st := p.st.step L p.filter c } := by simp [OParser.feed, hs, hk, hc10, hc13]
          rw [this, hf]
          exact ⟨hstep _ _ _ hpre hm h.1 hs hk hc10 hc13, h.2⟩

/-- Lift a state invariant `I` to a property `P` of all output lines. -/
theorem lines_inv {L : Locale} {f : Filter} {I : OState → Prop} {P : AsmLine → Prop}
    (h0 : I (start f).st)
    (hstep : ∀ s c, Modes s → I s → s.skipRestOfTheLine = false → c ≠ 10 → c ≠ 13 → I (s.step L f c))
    (hreset : ∀ s u i st pl, Modes s → I s → I (s.endUpd u i st pl).commonReset)
    (hsrc : ∀ s, Modes s → I s → s.ignoreUntilNextLabel = false → s.inSourceRefLineNumber = true →
      I s.updateSourceRefLineNumber.commonReset)
    (hmark : P markerLine)
    (hline : ∀ s, Modes s → I s → s.inLabel = false → s.ignoreUntilNextLabel = false →
      s.inSourceRefLineNumber = false → s.text ≠ [] → P s.finishLine)
    (hlab : ∀ s, Modes s → I s → s.inLabel = true → s.text ≠ [] →
      shouldIgnoreFunction (labelText s.text) f = false → P s.labelLine) (s : Str) :
    I (objParse L f s).st ∧ ∀ l ∈ (objParse L f s).lines, P l := by
  refine lines_inv_in (I := fun _ s => I s) (P := P) s h0 (fun _ s c _ hm hi _ => hstep s c hm hi) (fun _ _ _ _ _ h _ => h)
    (fun _ s u i st pl _ hm hi _ => hreset s u i st pl hm hi) (fun _ s _ hm hi _ => hsrc s hm hi)
    hmark (fun _ s _ => hline s) (fun _ s _ => hlab s)

/-! ### Column counting on ASCII -/

theorem ustrlenAux_ascii {L : Locale} (hL : L.Ascii) (s : Str) (h : asciiStr s) (n : Nat) (hn : s.length ≤ n) :
    ustrlenAux L n s = s.length := by
  induction s generalizing n with
  | nil => cases n <;> simp [ustrlenAux]
  | cons c s ih =>
    cases n with
    | zero => simp at hn
    | succ n =>
      have hc := h c (by simp)
      rw [ustrlenAux]
      simp only [List.isEmpty_cons, Bool.false_eq_true, ↓reduceIte, hL c s hc.1 hc.2]
      have e : ((1 : Int).toNat) = 1 := rfl
      simp only [e, List.drop_succ_cons, List.drop_zero, List.length_cons, show ¬ ((1 : Int) < 1) by omega, ↓reduceIte]
      have := ih (fun c hc => h c (by simp [hc])) n (by simpa using hn)
      rw [this]
      by_cases hs : s.length = 0
      · simp [hs]
      · rw [if_pos (by omega)]; omega

theorem ustrlen_ascii {L : Locale} (hL : L.Ascii) {s : Str} (h : asciiStr s) : ustrlen L s = s.length :=
  ustrlenAux_ascii hL s h _ (Nat.le_refl _)

theorem Locale.utf8_ascii : Locale.utf8.Ascii := by
  intro c cs h1 h2
  have h0 : c ≠ 0 := by rintro rfl; exact absurd h1 (by decide)
  have h3 : c ≠ 224 := by rintro rfl; exact absurd h2 (by decide)
  have h5 : c ≠ 240 := by rintro rfl; exact absurd h2 (by decide)
  simp [Locale.utf8, utf8Mblen, utf8Len, h0, h2, h3, h5]

/-! ### Label references -/

/-- What is known about a label reference found in the text `t`. -/
def RefOk (L : Locale) (t : Str) (r : AsmLabel) : Prop :=
  ∃ e, r.startCol ≤ e ∧ e ≤ t.length ∧ r.name = (t.take e).drop r.startCol ∧ r.endCol = ustrlen L (t.take e) % 65536

theorem RefOk.append {L : Locale} {t : Str} {r : AsmLabel} (h : RefOk L t r) (u : Str) : RefOk L (t ++ u) r := by
  obtain ⟨e, h1, h2, h3, h4⟩ := h
  have : (t ++ u).take e = t.take e := by rw [List.take_append_of_le_length h2]
  exact ⟨e, h1, by simp; omega, by rw [this]; exact h3, by rw [this]; exact h4⟩

def RefsOk (L : Locale) (s : OState) : Prop := ∀ r ∈ s.currentLine.labels, RefOk L s.text r

theorem refLabels_refOk {L : Locale} {f : Filter} {s : OState} (h : RefsOk L s) :
    ∀ r ∈ refLabels L f s, RefOk L s.text r := by
  unfold refLabels
  intro r hr
  split at hr
  · exact h r hr
  · simp only [List.mem_append, List.mem_singleton] at hr
    rcases hr with hr | rfl
    · exact h r hr
    · rename_i hc
      simp only [Bool.or_eq_true, decide_eq_true_eq, not_or] at hc
      exact ⟨s.text.length, by simp only; omega, Nat.le_refl _, by simp, by simp⟩

theorem RefsOk.nil {L : Locale} {s : OState} (h : s.currentLine.labels = []) : RefsOk L s := by
  intro r hr; rw [h] at hr; cases hr

theorem RefsOk.app {L : Locale} {s s' : OState} (h : RefsOk L s) (u : Str) (h1 : s'.currentLine = s.currentLine)
    (h2 : s'.text = s.text ++ u) : RefsOk L s' := by
  intro r hr; rw [h1] at hr; rw [h2]; exact (h r hr).append u

theorem RefsOk.step {L : Locale} {f : Filter} {s : OState} {c : Byte} (hm : Modes s) (h : RefsOk L s) :
    RefsOk L (s.step L f c) := by
  refine step_cases (P := RefsOk L) h ?_ ?_ ?_ ?_ ?_ ?_ ?_ ?_ ?_ ?_ ?_ ?_ ?_ ?_ ?_ ?_ ?_ ?_ ?_ ?_ ?_
  · unfold appText
    by_cases hc : (isWhitespace c && s.text.isEmpty) = true
    · simp only [hc, ↓reduceIte]; exact h
    · simp only [hc]; exact h.app [c] rfl rfl
  · intros; exact h.app [c] rfl rfl
  · intros; exact h
  · intro ha _ _; exact RefsOk.nil (by rw [addrFile, (hm.addr ha).2.2.2.2.2.2.2.2.2.1])
  · intro ha _ _ _; refine RefsOk.nil ?_; simp [addrDone, (hm.addr ha).2.2.2.2.2.2.2.2.2.1]
  · intros; exact h.app [c] rfl rfl
  · intro ha _ _; exact RefsOk.nil (by rw [addrFile, (hm.addr ha).2.2.2.2.2.2.2.2.2.1])
  · intro ha _ _ _ _; refine RefsOk.nil ?_; simp [addrDone, (hm.addr ha).2.2.2.2.2.2.2.2.2.1]
  · intro _ _ ho _ _; exact RefsOk.nil (hm.opc ho).2.2.2.1
  · intros; exact h.app (b! "   " ++ [c]) rfl (by simp)
  · intros; exact h.app [c] rfl rfl
  · intros; exact h.app b! " " rfl rfl
  · intro _ _ _ _ hs _ _; exact RefsOk.nil (by simp [(hm.sec hs).2.1])
  · intro _ _ _ _ hs _ _; exact RefsOk.nil (by simp [(hm.sec hs).2.1])
  · intros; exact h
  · intro _ _ _ _ _ hs _; exact RefsOk.nil (by simp [(hm.srcref hs).2.2.2.1])
  · intro _ _ _ _ _ hs _ _; exact RefsOk.nil (by simp [(hm.srcref hs).2.2.2.1])
  · intros; exact h.app [c] rfl rfl
  · intros; exact h.app [c] rfl rfl
  · intros; exact h.app [c] rfl rfl
  · intros
    intro r hr
    exact (refLabels_refOk h r hr).append [c]

/-- The label references of an output line, before the columns are looked at. -/
theorem refs_parse (L : Locale) (f : Filter) (s : Str) :
    ∀ l ∈ (objParse L f s).lines, l.labels = [] ∨ ∃ t, l.text = c! ' ' :: t ∧
      ∀ r ∈ l.labels, ∃ r', RefOk L t r' ∧ r.name = r'.name ∧ r.startCol = addCols r'.startCol ∧ r.endCol = addCols r'.endCol := by
  refine (lines_inv (L := L) (f := f) (I := RefsOk L) (P := fun l => l.labels = [] ∨ ∃ t, l.text = c! ' ' :: t ∧
      ∀ r ∈ l.labels, ∃ r', RefOk L t r' ∧ r.name = r'.name ∧ r.startCol = addCols r'.startCol ∧ r.endCol = addCols r'.endCol)
    ?_ ?_ ?_ ?_ ?_ ?_ ?_ s).2
  · exact RefsOk.nil rfl
  · intro s c hm h _ _ _; exact h.step hm
  · intros; exact RefsOk.nil rfl
  · intros; exact RefsOk.nil rfl
  · exact .inl rfl
  · intro s hm h _ _ _ _
    right
    refine ⟨s.text, ?_, ?_⟩
    · simp [OState.finishLine, hm.notLabel]
    · intro r hr
      simp only [OState.finishLine, hm.notLabel, Bool.false_eq_true, ↓reduceIte, List.mem_map] at hr
      obtain ⟨r', h1, rfl⟩ := hr
      exact ⟨r', h r' h1, rfl, rfl, rfl⟩
  · intro s hm _ hl _ _
    exact .inl (hm.lbl hl).2.2.2.2.2.2.1

/-! ### Opcode tokens -/

/-- A hexadecimal digit or a tab. -/
def hexTab (c : Byte) : Prop := isHex c = true ∨ c = 9

theorem splitOpcodes_ok {Q : Byte → Prop} (w cur : Str) (hcur : ∀ c ∈ cur, Q c)
    (hw : ∀ c ∈ w, c ≠ c! ' ' → Q c) : ∀ o ∈ splitOpcodes cur w, o ≠ [] ∧ ∀ c ∈ o, Q c := by
  induction w generalizing cur with
  | nil => intro o ho; simp [splitOpcodes] at ho
  | cons c w ih =>
    intro o ho
    rw [splitOpcodes] at ho
    by_cases hc : c = c! ' '
    · simp only [hc, bne_self_eq_false, Bool.false_eq_true, ↓reduceIte] at ho
      by_cases he : cur = []
      · simp only [he, List.isEmpty_nil, ↓reduceIte] at ho
        exact ih [] (by simp) (fun c h => hw c (by simp [h])) o ho
      · simp only [List.isEmpty_iff, he, ↓reduceIte, List.mem_cons] at ho
        rcases ho with rfl | ho
        · exact ⟨he, hcur⟩
        · exact ih [] (by simp) (fun c h => hw c (by simp [h])) o ho
    · simp only [bne_iff_ne, ne_eq, hc, not_false_eq_true, ↓reduceIte] at ho
      refine ih (cur ++ [c]) ?_ (fun c h => hw c (by simp [h])) o ho
      intro c' h'
      simp only [List.mem_append, List.mem_singleton] at h'
      rcases h' with h' | rfl
      · exact hcur _ h'
      · exact hw _ (by simp) hc

/-- Opcode mode: `Q` holds of the non-blank characters collected, and of the finished tokens; the last character
of the text is the last one of the input `t` (without carriage returns). -/
structure OpcInv (Q : Byte → Prop) (t : Str) (s : OState) : Prop where
  text : s.inOpcodes = true → s.inLabel = false → ∀ c ∈ s.text, c ≠ c! ' ' → Q c
  last : s.inOpcodes = true → s.inLabel = false → s.text ≠ [] → s.text.getLast? = (t.filter (· != 13)).getLast?
  skip : s.inOpcodes = true → s.skipRestOfTheLine = false
  stop : s.stopParsing = true → s.inOpcodes = false
  toks : ∀ o ∈ s.currentLine.opcodes, o ≠ [] ∧ ∀ c ∈ o, Q c

theorem OpcInv.step {L : Locale} {f : Filter} {Q : Byte → Prop} (hQ : ∀ c, isHex c = true → Q c) {s : OState}
    {t : Str} {c : Byte} (hm : Modes s) (h : OpcInv Q t s) (hs : s.stopParsing = false) (hk : s.skipRestOfTheLine = false) (h13 : c ≠ 13)
    (hT : c = 9 → ∀ d, (t.filter (· != 13)).getLast? = some d → Q d → d ≠ c! ' ' → Q c) :
    OpcInv Q (t ++ [c]) (s.step L f c) := by
  have hlast : ((t ++ [c]).filter (· != 13)).getLast? = some c := by
    simp [List.filter_append, h13]
  refine step_cases' (P := OpcInv Q (t ++ [c])) ?_ ?_ ?_ ?_ ?_ ?_ ?_ ?_ ?_ ?_ ?_ ?_ ?_ ?_ ?_ ?_ ?_ ?_ ?_ ?_ ?_ ?_ ?_ ?_ ?_ ?_ ?_ ?_ ?_ ?_
  · intro ha _
    have := (hm.addr ha).2.1
    exact ⟨by simp [this], by simp [this], by simp [this], by simp [hs], h.toks⟩
  · intro _ _ ho _ ht
    exact ⟨by simp [ht], by simp [ht], fun _ => hk, by simp [hs], h.toks⟩
  · intro ha _ _ _ _
    have := (hm.addr ha).2.1
    exact ⟨by simp [this], by simp [this], by simp [this], by simp [hs], h.toks⟩
  · intro _ hl
    exact ⟨by simp [hl], by simp [hl], fun _ => hk, by simp [hs], h.toks⟩
  · -- blank in opcode mode
    intro _ hl ho hw hne hne'
    refine ⟨?_, ?_, fun _ => hk, by simp [hs], h.toks⟩
    · intro _ _ c' hc' hsp
      simp only [List.mem_append, List.mem_singleton] at hc'
      rcases hc' with hc' | rfl
      · exact h.text ho hl c' hc' hsp
      · have e9 : c' = 9 := by
          simp only [isWhitespace, Bool.or_eq_true, beq_iff_eq] at hw
          rcases hw with hw | hw
          · exact absurd hw hsp
          · exact hw
        have h1 := h.last ho hl hne
        cases hg : s.text.getLast? with
        | none => rw [List.getLast?_eq_none_iff] at hg; exact absurd hg hne
        | some d =>
          rw [hg] at h1 hne'
          have hd : d ≠ c! ' ' := by simpa using hne'
          exact hT e9 d h1.symm (h.text ho hl d (List.mem_of_getLast? hg) hd) hd
    · intro _ _ _; rw [hlast]; simp
  · intro _ hl ho hx
    refine ⟨?_, ?_, fun _ => hk, by simp [hs], h.toks⟩
    · intro _ _ c' hc' hsp
      simp only [List.mem_append, List.mem_singleton] at hc'
      rcases hc' with hc' | rfl
      · exact h.text ho hl c' hc' hsp
      · exact hQ _ hx
    · intro _ _ _; rw [hlast]; simp
  · intro _ _ ho _ _; exact ⟨by simp [ho], by simp [ho], by simp [ho], by simp [hs], h.toks⟩
  · intro _ _ ho _ _ _ _; exact ⟨by simp [ho], by simp [ho], by simp [ho], by simp [hs], h.toks⟩
  · intro _ _ ho _ _ _ _ _; exact ⟨by simp [ho], by simp [ho], by simp [ho], by simp [hs], h.toks⟩
  · intro _ _ ho _ _ _ _; exact ⟨by simp [ho], by simp [ho], by simp [ho], by simp [hs], h.toks⟩
  · intro ha _
    have := (hm.addr ha).2.1
    exact ⟨by simp [this], by simp [this], by simp [this], by simp [hs], h.toks⟩
  · intro ha _ _; exact ⟨by simp, by simp, by simp, by simp [hs], h.toks⟩
  · intro ha _ _; exact ⟨by simp [addrFile], by simp [addrFile], by simp [addrFile], by simp [addrFile, hs], h.toks⟩
  · intro ha _ _ _
    refine ⟨by simp [addrDone], by simp [addrDone], ?_, by simp [addrDone, hs], h.toks⟩
    have := (hm.addr ha).2.1
    simp only [addrDone, this]; intro h; by_cases hb : addrBad s = true <;> simp_all
  · intro ha _ _
    have := (hm.addr ha).2.1
    exact ⟨by simp [this], by simp [this], by simp [this], by simp [hs], h.toks⟩
  · intro ha _ _; exact ⟨by simp [addrFile], by simp [addrFile], by simp [addrFile], by simp [addrFile, hs], h.toks⟩
  · intro ha _ _ _ _
    refine ⟨by simp [addrDone], by simp [addrDone], ?_, by simp [addrDone, hs], h.toks⟩
    have := (hm.addr ha).2.1
    simp only [addrDone, this]; intro h; by_cases hb : addrBad s = true <;> simp_all
  · intro _ hl ho _ _
    refine ⟨by simp, by simp, by simp, by simp, ?_⟩
    intro o hmem
    by_cases hi : s.ignoreUntilNextLabel = true
    · simp only [hi, ↓reduceIte] at hmem; exact h.toks o hmem
    · simp only [hi, Bool.false_eq_true, ↓reduceIte, List.mem_append] at hmem
      rcases hmem with hmem | hmem
      · exact h.toks o hmem
      · exact splitOpcodes_ok _ _ (by simp) (h.text ho hl) o hmem
  · intros; exact ⟨by simp, by simp, by simp, by simp [hs], h.toks⟩
  · intros; exact ⟨by simp, by simp, by simp, by simp [hs], h.toks⟩
  · intro _ _ ho _ _; exact ⟨by simp [ho], by simp [ho], by simp [ho], by simp [hs], h.toks⟩
  · intro _ _ ho _ _ _ _; exact ⟨by simp [ho], by simp [ho], by simp [ho], by simp [hs], h.toks⟩
  · intro _ _ ho _ _ _ _; exact ⟨by simp [ho], by simp [ho], by simp [ho], by simp [hs], h.toks⟩
  · intro _ _ ho _ _ _ _; exact ⟨by simp [ho], by simp [ho], by simp [ho], by simp [hs], h.toks⟩
  · intro _ _ ho _ _ _ _; exact ⟨by simp [ho], by simp [ho], by simp [ho], by simp [hs], h.toks⟩
  · intro _ _ ho _ _ _ _ _; exact ⟨by simp [ho], by simp [ho], by simp [ho], by simp [hs], h.toks⟩
  · intro _ _ ho _ _ _ _ _; exact ⟨by simp [ho], by simp [ho], by simp [ho], by simp [hs], h.toks⟩
  · intro _ _ ho _ _ _ _ _; exact ⟨by simp [ho], by simp [ho], by simp [ho], by simp [hs], h.toks⟩
  · intro _ _ ho _ _ _ _ _ _ _; exact ⟨by simp [ho], by simp [ho], by simp [ho], by simp [hs], h.toks⟩
  · intro _ _ ho _ _ _ _ _ _; exact ⟨by simp [ho], by simp [ho], by simp [ho], by simp [hs], h.toks⟩

theorem OpcInv.reset {Q : Byte → Prop} {t : Str} {s : OState} : OpcInv Q t s.commonReset :=
  ⟨by simp [OState.commonReset], by simp [OState.commonReset], by simp [OState.commonReset],
   by simp [OState.commonReset], by simp [OState.commonReset]⟩

theorem opcodes_parse {L : Locale} {f : Filter} {Q : Byte → Prop} (hQ : ∀ c, isHex c = true → Q c) (s : Str)
    (hT : ∀ t d, t ++ [9] <+: s → (t.filter (· != 13)).getLast? = some d → Q d → d ≠ c! ' ' → Q 9) :
    ∀ l ∈ (objParse L f s).lines, ∀ o ∈ l.opcodes, o ≠ [] ∧ ∀ c ∈ o, Q c := by
  refine (lines_inv_in (L := L) (f := f) (I := OpcInv Q) (P := fun l => ∀ o ∈ l.opcodes, o ≠ [] ∧ ∀ c ∈ o, Q c)
    s ?_ ?_ ?_ ?_ ?_ ?_ ?_ ?_).2
  · exact ⟨by simp [start], by simp [start], by simp [start], by simp [start], by simp [start]⟩
  · intro t s' c hp hm h hs hk _ h13
    exact h.step hQ hm hs hk h13 (by rintro rfl d hd h1 h2; exact hT t d hp hd h1 h2)
  · intro t s' c _ hm h hc
    refine ⟨h.text, fun ho hl hne => ?_, h.skip, h.stop, h.toks⟩
    rcases hc with rfl | ⟨hk, -⟩ | hs
    · rw [h.last ho hl hne]; simp
    · rw [h.skip ho] at hk; cases hk
    · rw [h.stop hs] at ho; cases ho
  · intros; exact OpcInv.reset
  · intros; exact OpcInv.reset
  · intro o ho; simp [markerLine] at ho
  · intro t s' _ hm h _ _ _ _ o ho
    refine h.toks o ?_
    simpa [OState.finishLine, hm.notLabel] using ho
  · intro t s' _ hm h _ _ _ o ho
    exact h.toks o ho

end AsmParser
