/-
Helper lemmas: which modes of the objdump parser exclude each other.
-/
import Verif.Proofs.ObjInv

namespace AsmParser

/-- The modes a fresh parser can be in. -/
structure Modes (s : OState) : Prop where
  notLabel : s.currentLine.isLabel = false
  noLabel : s.currentLine.label = []
  noText : s.currentLine.text = []
  addr : s.inAddress = true → s.inLabel = false ∧ s.inOpcodes = false ∧ s.inRelocation = false ∧
    s.inSectionStart = false ∧ s.inSectionName = false ∧ s.inSourceRef = false ∧
    s.inSourceRefLineNumber = false ∧ s.inComment = false ∧ s.skipRestOfTheLine = false ∧
    s.currentLine = {} ∧ slashText s = false
  lbl : s.inLabel = true → s.inRelocation = false ∧ s.inSectionStart = false ∧ s.inSectionName = false ∧
    s.inSourceRef = false ∧ s.inSourceRefLineNumber = false ∧ s.inComment = false ∧
    s.currentLine.labels = [] ∧ s.currentLine.opcodes = []
  opc : s.inOpcodes = true → s.inRelocation = false ∧ s.inSectionStart = false ∧ s.inSourceRef = false ∧
    s.currentLine.labels = [] ∧ s.currentLine.opcodes = [] ∧ s.inComment = false
  src : s.inSourceRefLineNumber = true → s.inSourceRef = true
  srcref : s.inSourceRef = true → s.inSectionStart = false ∧ s.inRelocation = false ∧
    s.inSectionName = false ∧ s.currentLine = {} ∧ s.inComment = false
  sec : s.inSectionStart = true → s.inRelocation = false ∧ s.currentLine = {} ∧ s.inComment = false
  secn : s.inSectionName = true → s.inSectionStart = true
  rel : s.inRelocation = true → s.currentLine.labels = [] ∧ s.currentLine.opcodes = [] ∧ s.inComment = false

theorem slashText_app {s : OState} {c : Byte} (hc : c ≠ c! '/') (h : slashText s = false) :
    ((s.text ++ [c]).head? == some c! '/') = false := by
  unfold slashText at h
  cases ht : s.text with
  | nil => simpa using hc
  | cons a as => rw [ht] at h; simpa using h

theorem Modes.step {L : Locale} {f : Filter} {s : OState} {c : Byte} (h : Modes s) :
    Modes (s.step L f c) := by
  obtain ⟨h1, h2, h3, h4, h5, h6, h7, h8, h9, h10, h11⟩ := h
  refine step_cases' (P := Modes) ?_ ?_ ?_ ?_ ?_ ?_ ?_ ?_ ?_ ?_ ?_ ?_ ?_ ?_ ?_ ?_ ?_ ?_ ?_ ?_ ?_ ?_ ?_ ?_ ?_ ?_ ?_ ?_ ?_ ?_
  case refine_3 =>
    intro hA hc _ _ _
    have := h4 hA
    have := slashText_app hc this.2.2.2.2.2.2.2.2.2.2
    constructor <;> simp_all [slashText]
  all_goals
    intros
    try unfold addrDone
    try unfold addrFile
    constructor <;> simp_all

theorem Modes.reset (s : OState) : Modes s.commonReset := by
  constructor <;> simp [OState.commonReset, slashText]

theorem Modes.eol (p : OParser) : Modes p.eol.st := by
  refine eol_cases (P := fun p => Modes p.st) ?_ ?_ ?_ ?_ ?_ ?_ ?_ ?_ <;> intros <;> exact Modes.reset _

theorem Modes.feed {L : Locale} {p : OParser} (c : Byte) (h : Modes p.st) : Modes (p.feed L c).st := by
  by_cases hs : p.st.stopParsing = true
  · rw [feed_stop hs]; exact h
  · exact feed_cases (P := fun p => Modes p.st) (by simpa using hs) h (fun _ => Modes.eol p)
      (fun _ _ _ => h.step)

theorem Modes.start (f : Filter) : Modes (start f).st := by
  constructor <;> simp [AsmParser.start, slashText]

theorem Modes.parse (L : Locale) (f : Filter) (s : Str) : Modes (objParse L f s).st :=
  objParse_induct (P := fun p => Modes p.st) (Modes.start f) (fun _ c h _ => h.feed c) s

/-- Induction over the input, with the mode invariant at hand. -/
theorem objParse_induct' {L : Locale} {f : Filter} {P : OParser → Prop} (h0 : P (start f))
    (hstep : ∀ p c, Modes p.st → p.filter = f → P p → p.st.stopParsing = false → P (p.feed L c))
    (s : Str) : P (objParse L f s) := by
  refine (objParse_induct (P := fun p => P p ∧ Modes p.st ∧ p.filter = f) ⟨h0, Modes.start f, rfl⟩ ?_ s).1
  intro p c ⟨h1, h2, h3⟩ hs
  refine ⟨hstep p c h2 h3 h1 hs, h2.feed c, ?_⟩
  refine feed_cases (P := fun p => p.filter = f) hs h3 (fun _ => ?_) (fun _ _ _ => h3)
  have hp : p.prune.filter = f := by rw [prune_frame]; exact h3
  refine eol_cases (P := fun p => p.filter = f) ?_ ?_ ?_ ?_ ?_ ?_ ?_ ?_ <;> intros <;> first | exact h3 | exact hp

end AsmParser
