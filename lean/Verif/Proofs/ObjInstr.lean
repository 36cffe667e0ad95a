/-
Helper lemmas: a line that begins with an address and a colon.
-/
import Verif.Proofs.ObjAddr

namespace AsmParser

/-- The state after the word `a` and a colon, at the beginning of a line. -/
theorem read_hex_colon {L : Locale} {f : Filter} {s : OState} {ws a : Str} (hb : Boundary s)
    (hws : ∀ c ∈ ws, isWhitespace c = true) (ha : ∀ c ∈ a, isHex c = true) (hne : a ≠ []) :
    s.read L f (ws ++ a ++ b! ":") = addrDone (s.withText a) false := by
  have hk : s.skipRestOfTheLine = false := (hb.modes.addr hb.addr).2.2.2.2.2.2.2.2.1
  have hl : s.inLabel = false := (hb.modes.addr hb.addr).1
  rw [read_append, read_append, read_addr_ws hb.addr hk hb.text hws, read_word hb.addr hk (fun c h => firstChar_hex (ha c h)),
    hb.text, List.nil_append, read_one (by decide) (by exact hk)]
  have hsl : slashText (s.withText a) = false := by
    cases a with
    | nil => exact absurd rfl hne
    | cons c a => simpa [slashText, OState.withText] using hex_not_slash (ha c (by simp))
  have e : (s.withText a).inAddress = true := hb.addr
  have := address_done hsl (by exact hne)
  have h1 : (c! ':' == c! '/') = false := by decide
  have h2 : (c! ':' == c! ';') = false := by decide
  simp only [OState.step, e, OState.stepAddress, ↓reduceIte, h1, h2, Bool.false_eq_true, beq_self_eq_true]
  rw [this]
  simp [OState.withText, hl]

/-- Behind the colon: the modes that are off, and what does not change any more on this line. -/
structure Body (s0 s : OState) : Prop where
  inAddress : s.inAddress = false
  inLabel : s.inLabel = false
  inSectionStart : s.inSectionStart = false
  inSourceRef : s.inSourceRef = false
  inLine : s.inSourceRefLineNumber = false
  address : s.currentLine.address = s0.currentLine.address
  ub : s.ub = s0.ub
  ign : s.ignoreUntilNextLabel = s0.ignoreUntilNextLabel
  src : s.currentSourceRef = s0.currentSourceRef
  sec : s.currentSection = s0.currentSection

theorem Body.step {L : Locale} {f : Filter} {s0 s : OState} {c : Byte} (h : Body s0 s) : Body s0 (s.step L f c) := by
  obtain ⟨h1, h2, h3, h4, h5, h6, h7, h8, h9, h10⟩ := h
  refine step_cases (P := Body s0) ⟨h1, h2, h3, h4, h5, h6, h7, h8, h9, h10⟩ ?_ ?_ ?_ ?_ ?_ ?_ ?_ ?_ ?_ ?_ ?_ ?_ ?_ ?_ ?_ ?_ ?_ ?_ ?_ ?_ ?_
  all_goals
    first
    | (intro ha; rw [h1] at ha; cases ha; done)
    | (intros; constructor <;> simp_all)

theorem Body.read {L : Locale} {f : Filter} {s0 s : OState} (h : Body s0 s) (w : Str) : Body s0 (s.read L f w) := by
  induction w generalizing s with
  | nil => exact h
  | cons c w ih =>
    rw [read_cons]
    refine ih ?_
    by_cases hc : (c == 13 || s.skipRestOfTheLine) = true
    · simp only [OState.read, List.foldl_cons, List.foldl_nil, hc, ↓reduceIte]; exact h
    · simp only [OState.read, List.foldl_cons, List.foldl_nil, hc, Bool.false_eq_true, ↓reduceIte]; exact h.step

theorem Boundary.body {s : OState} (hb : Boundary s) (a : Str) :
    Body (addrDone (s.withText a) false) (addrDone (s.withText a) false) := by
  have := hb.modes.addr hb.addr
  constructor <;> simp [addrDone, OState.withText, this]

/-- Reading a whole line that begins with an address and a colon. -/
theorem feed_instr {L : Locale} {p : OParser} (hs : p.st.stopParsing = false) (hb : Boundary p.st) {ws a rest : Str}
    (hws : ∀ c ∈ ws, isWhitespace c = true) (ha : ∀ c ∈ a, isHex c = true) (hne : a ≠ []) (hr : (10 : Byte) ∉ rest) :
    let q := (ws ++ a ++ b! ":" ++ rest ++ [10]).foldl (OParser.feed L) p
    q.st.ub = (addrDone (p.st.withText a) false).ub ∧
    (q.lines = p.lines ∨ q.lines = p.lines ++ [markerLine] ∨ ∃ l, q.lines = p.lines ++ [l] ∧ p.st.ignoreUntilNextLabel = false ∧
      l.address = (addrDone (p.st.withText a) false).currentLine.address ∧ l.source = p.st.currentSourceRef ∧
      l.sect = p.st.currentSection ∧ l.isLabel = false) := by
  intro q
  have hw : (10 : Byte) ∉ ws ++ a ++ b! ":" ++ rest := by
    simp only [List.mem_append, not_or]
    refine ⟨⟨⟨?_, ?_⟩, by decide⟩, hr⟩
    · intro h; have := hws _ h; simp [isWhitespace] at this
    · intro h; have := ha _ h; simp [isHex] at this
  have hq : q = ({ p with st := p.st.read L p.filter (ws ++ a ++ b! ":" ++ rest) } : OParser).eol := feed_readline hw p hs
  rw [read_append, read_hex_colon hb hws ha hne] at hq
  have hbody := (hb.body a).read (L := L) (f := p.filter) rest
  have hmod : Modes ((addrDone (p.st.withText a) false).read L p.filter rest) := by
    have := (Modes.feed (L := L) (p := p) · hb.modes)
    have h2 : ∀ w : Str, (10 : Byte) ∉ w → Modes (p.st.read L p.filter w) := by
      intro w hw
      have h3 := (feed_line (L := L) hs hb w hw).2.1
      rw [feed_read hw p hs] at h3
      exact h3
    have h4 := h2 _ hw
    rwa [read_append, read_hex_colon hb hws ha hne] at h4
  generalize hs0 : addrDone (p.st.withText a) false = s0 at *
  have e1 : s0.ignoreUntilNextLabel = p.st.ignoreUntilNextLabel := by rw [← hs0]; rfl
  have e2 : s0.currentSourceRef = p.st.currentSourceRef := by rw [← hs0]; rfl
  have e3 : s0.currentSection = p.st.currentSection := by rw [← hs0]; rfl
  generalize s0.read L p.filter rest = s at *
  rw [hq]
  refine eol_cases (P := fun q => q.st.ub = s0.ub ∧
    (q.lines = p.lines ∨ q.lines = p.lines ++ [markerLine] ∨ ∃ l, q.lines = p.lines ++ [l] ∧ p.st.ignoreUntilNextLabel = false ∧
      l.address = s0.currentLine.address ∧ l.source = p.st.currentSourceRef ∧
      l.sect = p.st.currentSection ∧ l.isLabel = false)) ?_ ?_ ?_ ?_ ?_ ?_ ?_ ?_
  · intros; exact ⟨hbody.ub, .inl rfl⟩
  · intro _ _ h; simp only [hbody.inLine] at h; cases h
  · intro _ hi _ _ _
    refine ⟨hbody.ub, .inr (.inr ⟨_, rfl, ?_, ?_, ?_, ?_, ?_⟩)⟩
    · rw [← e1, ← hbody.ign]; exact hi
    · rw [← hbody.address]; simp [OState.finishLine, hmod.notLabel]
    · rw [← e2, ← hbody.src]; simp [OState.finishLine]
    · rw [← e3, ← hbody.sec]; simp [OState.finishLine, hmod.notLabel]
    · simp [OState.finishLine, hmod.notLabel]
  · intros; exact ⟨hbody.ub, .inr (.inl rfl)⟩
  all_goals intro h; simp only [hbody.inLabel] at h; cases h

end AsmParser
