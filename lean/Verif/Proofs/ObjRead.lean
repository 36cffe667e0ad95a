/-
Helper lemmas: what reading (part of) a line does to the state of the objdump parser.
-/
import Verif.Proofs.ObjHeader

namespace AsmParser

/-- The effect of characters other than newline on the state. -/
def OState.read (L : Locale) (f : Filter) (s : OState) (w : Str) : OState :=
  w.foldl (fun s c => if c == 13 || s.skipRestOfTheLine then s else s.step L f c) s

theorem read_nil (L : Locale) (f : Filter) (s : OState) : s.read L f [] = s := rfl

theorem read_append (L : Locale) (f : Filter) (s : OState) (a b : Str) :
    s.read L f (a ++ b) = (s.read L f a).read L f b := by simp [OState.read, List.foldl_append]

theorem read_cons (L : Locale) (f : Filter) (s : OState) (c : Byte) (b : Str) :
    s.read L f (c :: b) = (s.read L f [c]).read L f b := by simp [OState.read]

theorem read_one {L : Locale} {f : Filter} {s : OState} {c : Byte} (h : c ≠ 13) (hs : s.skipRestOfTheLine = false) :
    s.read L f [c] = s.step L f c := by simp [OState.read, h, hs]

theorem read_skip {L : Locale} {f : Filter} {s : OState} (h : s.skipRestOfTheLine = true) (w : Str) :
    s.read L f w = s := by
  induction w with
  | nil => rfl
  | cons c w ih => rw [read_cons, show s.read L f [c] = s by simp [OState.read, h], ih]

theorem read_stop {L : Locale} {f : Filter} {s : OState} (w : Str) :
    (s.read L f w).stopParsing = s.stopParsing := by
  induction w generalizing s with
  | nil => rfl
  | cons c w ih =>
    rw [read_cons, ih]
    by_cases h : (c == 13 || s.skipRestOfTheLine) = true
    · simp only [OState.read, List.foldl_cons, List.foldl_nil, h, ↓reduceIte]
    · simp only [OState.read, List.foldl_cons, List.foldl_nil, h, Bool.false_eq_true, ↓reduceIte]
      exact step_stopParsing ..

theorem feed_read {L : Locale} {w : Str} (hw : (10 : Byte) ∉ w) (p : OParser) (hs : p.st.stopParsing = false) :
    w.foldl (OParser.feed L) p = { p with st := p.st.read L p.filter w } := by
  induction w generalizing p with
  | nil => rfl
  | cons c w ih =>
    simp only [List.mem_cons, not_or] at hw
    have hc : c ≠ 10 := fun h => hw.1 h.symm
    rw [List.foldl_cons, read_cons]
    have : p.feed L c = { p with st := p.st.read L p.filter [c] } := by
      by_cases h13 : c = 13
      · subst h13; simp [OParser.feed, hs, OState.read]
      · by_cases hk : p.st.skipRestOfTheLine = true
        · simp [OParser.feed, hs, OState.read, hk, hc]
        · simp [OParser.feed, hs, OState.read, hk, hc, h13]
    rw [this, ih hw.2]
    exact (read_stop _).trans hs

/-- Reading a whole line. -/
theorem feed_readline {L : Locale} {w : Str} (hw : (10 : Byte) ∉ w) (p : OParser) (hs : p.st.stopParsing = false) :
    (w ++ [10]).foldl (OParser.feed L) p = ({ p with st := p.st.read L p.filter w } : OParser).eol := by
  rw [List.foldl_append, feed_read hw p hs]
  have : ({ p with st := p.st.read L p.filter w } : OParser).st.stopParsing = false := (read_stop _).trans hs
  simp only [List.foldl_cons, List.foldl_nil]
  generalize ({ p with st := p.st.read L p.filter w } : OParser) = q at *
  simp [OParser.feed, this]

/-! ### Address mode -/

/-- A character of an address or other first word. -/
def firstChar (c : Byte) : Bool := wordChar c && c != c! ';' && c != 13

/-- State with the given text. -/
def OState.withText (s : OState) (t : Str) : OState := { s with text := t }

theorem withText_text (s : OState) : s.withText s.text = s := rfl

theorem step_addr_ws {L : Locale} {f : Filter} {s : OState} {c : Byte} (ha : s.inAddress = true)
    (ht : s.text = []) (hc : isWhitespace c = true) : s.step L f c = s := by
  have h1 : c ≠ c! '/' := by rintro rfl; simp [isWhitespace] at hc
  have h2 : c ≠ c! ':' := by rintro rfl; simp [isWhitespace] at hc
  have h3 : c ≠ c! ';' := by rintro rfl; simp [isWhitespace] at hc
  simp [OState.step, ha, OState.stepAddress, h1, h2, h3, hc, ht]

theorem read_addr_ws {L : Locale} {f : Filter} {s : OState} {w : Str} (ha : s.inAddress = true)
    (hk : s.skipRestOfTheLine = false) (ht : s.text = []) (hw : ∀ c ∈ w, isWhitespace c = true) :
    s.read L f w = s := by
  induction w with
  | nil => rfl
  | cons c w ih =>
    have hc := hw c (by simp)
    rw [read_cons, read_one (by rintro rfl; simp [isWhitespace] at hc) hk, step_addr_ws ha ht hc,
      ih (fun c h => hw c (by simp [h]))]

theorem read_word {L : Locale} {f : Filter} {s : OState} {w : Str} (ha : s.inAddress = true)
    (hk : s.skipRestOfTheLine = false) (hw : ∀ c ∈ w, firstChar c = true) :
    s.read L f w = s.withText (s.text ++ w) := by
  induction w generalizing s with
  | nil => simp [read_nil, OState.withText]
  | cons c w ih =>
    have hc := hw c (by simp)
    simp only [firstChar, wordChar, Bool.and_eq_true, Bool.not_eq_true', bne_iff_ne] at hc
    have : s.step L f c = s.withText (s.text ++ [c]) := by
      simp [OState.step, ha, OState.stepAddress, hc, OState.append, OState.withText]
    rw [read_cons, read_one hc.2 hk, this, ih (by exact ha) (by exact hk) (fun c h => hw c (by simp [h]))]
    simp [OState.withText]

/-! ### Label mode -/

theorem read_label {L : Locale} {f : Filter} {s : OState} {w : Str} (ha : s.inAddress = false) (hl : s.inLabel = true)
    (hk : s.skipRestOfTheLine = false) (hw : (13 : Byte) ∉ w) (ht : s.text ≠ []) :
    s.read L f w = s.withText (s.text ++ w) := by
  induction w generalizing s with
  | nil => simp [read_nil, OState.withText]
  | cons c w ih =>
    simp only [List.mem_cons, not_or] at hw
    have : s.step L f c = s.withText (s.text ++ [c]) := by
      simp [OState.step, ha, hl, OState.append, OState.withText, ht]
    rw [read_cons, read_one (fun h => hw.1 h.symm) hk, this, ih (by exact ha) (by exact hl) (by exact hk) hw.2
      (by simp [OState.withText])]
    simp [OState.withText]

/-! ### Function headers -/

theorem addrLoop_notHex {w : Str} (hw : ∀ c ∈ w, isHex c = true) (a : AddrAcc) :
    (addrLoop w a).notHex = a.notHex := by
  induction w generalizing a with
  | nil => rfl
  | cons c w ih =>
    have hc := hw c (by simp)
    rw [addrLoop]
    simp only [hc, Bool.not_true, Bool.false_eq_true, ↓reduceIte]
    rw [ih (fun c h => hw c (by simp [h]))]
    by_cases h1 : hex2int c = 0
    · simp [h1]
    · by_cases h2 : a.bits < 0 ∨ 32 ≤ a.bits <;> simp [h1, h2]

/-- A decidable statement about all bytes can be checked by evaluation. -/
theorem byte_forall {P : Byte → Prop} (h : ∀ i : Fin 256, P (UInt8.ofFin i)) {c : Byte} : P c := h c.toFin

theorem firstChar_hex {c : Byte} (h : isHex c = true) : firstChar c = true := by
  exact byte_forall (P := fun c => isHex c = true → firstChar c = true) (by decide +kernel) h

theorem hex_not_slash {c : Byte} (h : isHex c = true) : c ≠ c! '/' := by rintro rfl; cases h
theorem hex_not_D {c : Byte} (h : isHex c = true) : c ≠ c! 'D' := by rintro rfl; cases h

/-- The state after the word `a` and a blank, at the beginning of a line. -/
theorem read_hex_ws {L : Locale} {f : Filter} {s : OState} {ws a : Str} {b : Byte} (hb : Boundary s)
    (hws : ∀ c ∈ ws, isWhitespace c = true) (ha : ∀ c ∈ a, isHex c = true) (hne : a ≠ []) (hb' : isWhitespace b = true) :
    s.read L f (ws ++ a ++ [b]) = addrDone (s.withText a) true := by
  have hk : s.skipRestOfTheLine = false := (hb.modes.addr hb.addr).2.2.2.2.2.2.2.2.1
  have h1 : b ≠ c! '/' := by rintro rfl; simp [isWhitespace] at hb'
  have h2 : b ≠ c! ':' := by rintro rfl; simp [isWhitespace] at hb'
  have h3 : b ≠ c! ';' := by rintro rfl; simp [isWhitespace] at hb'
  have h4 : b ≠ 13 := by rintro rfl; simp [isWhitespace] at hb'
  rw [read_append, read_append, read_addr_ws hb.addr hk hb.text hws, read_word hb.addr hk (fun c h => firstChar_hex (ha c h)),
    hb.text, List.nil_append, read_one h4 (by exact hk)]
  have hd : a ≠ b! "Disassembly" := by
    rintro rfl
    exact hex_not_D (ha (c! 'D') (by simp)) rfl
  have hsl : slashText (s.withText a) = false := by
    cases a with
    | nil => exact absurd rfl hne
    | cons c a => simpa [slashText, OState.withText] using hex_not_slash (ha c (by simp))
  have e : (s.withText a).inAddress = true := hb.addr
  have et : (s.withText a).text = a := rfl
  have := address_done hsl (by exact hne)
  simp only [OState.step, e, OState.stepAddress, ↓reduceIte, beq_iff_eq, h1, h2, h3, hb', et, hd]
  rw [this]
  simp [hne, addrDone]

theorem addrBad_hex {s : OState} (h : ∀ c ∈ s.text, isHex c = true) : addrBad s = false := by
  simp [addrBad, addrLoop_notHex (w := s.text.reverse) (by simpa using h)]

/-- The state after reading a function header (before the end of the line). -/
theorem read_header {L : Locale} {f : Filter} {s : OState} {ws a n : Str} (hb : Boundary s)
    (hws : ∀ c ∈ ws, isWhitespace c = true) (ha : ∀ c ∈ a, isHex c = true) (hne : a ≠ [])
    (hn : (13 : Byte) ∉ n) :
    s.read L f (ws ++ a ++ b! " <" ++ n ++ b! ">:") =
      (addrDone (s.withText a) true).withText (b! "<" ++ n ++ b! ">:") := by
  have hk : s.skipRestOfTheLine = false := (hb.modes.addr hb.addr).2.2.2.2.2.2.2.2.1
  have e : ws ++ a ++ b! " <" ++ n ++ b! ">:" = (ws ++ a ++ b! " ") ++ (b! "<" ++ (n ++ b! ">:")) := by simp
  rw [e, read_append, read_hex_ws hb hws ha hne (by decide), read_append]
  have hbad : addrBad (s.withText a) = false := addrBad_hex ha
  generalize hs' : addrDone (s.withText a) true = s'
  have hk' : s'.skipRestOfTheLine = false := by rw [← hs']; simp only [addrDone, hbad, Bool.or_false]; exact hk
  have ha' : s'.inAddress = false := by rw [← hs']; rfl
  have hl' : s'.inLabel = true := by rw [← hs']; rfl
  have ht' : s'.text = [] := by rw [← hs']; rfl
  rw [read_one (by decide) hk']
  have : s'.step L f (c! '<') = s'.withText (b! "<") := by
    simp [OState.step, ha', hl', OState.append, OState.withText, ht', isWhitespace]
  rw [this, read_label (by exact ha') (by exact hl') (by exact hk') (by simpa using hn) (by simp [OState.withText])]
  simp [OState.withText]

theorem getLabel_header (n : Str) : getLabelFromObjdumpLabel (b! "<" ++ n ++ b! ">:") = some n := by
  have h1 : startsWith (b! "<" ++ n ++ b! ">:") b! "<" = true := by simp [startsWith]
  have h2 : endsWith (b! "<" ++ n ++ b! ">:") b! ">:" = true := by
    simp only [endsWith, List.isSuffixOf_iff_suffix]; exact ⟨_, rfl⟩
  unfold getLabelFromObjdumpLabel
  rw [h1, h2]
  simp

/-- A header of an ignored function: only a removed function changes the output, and the following lines are ignored. -/
theorem header_ignored {L : Locale} {p : OParser} (hs : p.st.stopParsing = false) (hb : Boundary p.st) {ws a n : Str}
    (hws : ∀ c ∈ ws, isWhitespace c = true) (ha : ∀ c ∈ a, isHex c = true) (hne : a ≠ [])
    (hn : (13 : Byte) ∉ n) (hn' : (10 : Byte) ∉ n) (hi : shouldIgnoreFunction n p.filter = true) :
    ((ws ++ a ++ b! " <" ++ n ++ b! ">:" ++ [10]).foldl (OParser.feed L) p).lines = p.prune.lines ∧
    ((ws ++ a ++ b! " <" ++ n ++ b! ">:" ++ [10]).foldl (OParser.feed L) p).labels = p.prune.labels ∧
    ((ws ++ a ++ b! " <" ++ n ++ b! ">:" ++ [10]).foldl (OParser.feed L) p).st.ignoreUntilNextLabel = true := by
  have hw : (10 : Byte) ∉ ws ++ a ++ b! " <" ++ n ++ b! ">:" := by
    simp only [List.mem_append, not_or]
    refine ⟨⟨⟨⟨?_, ?_⟩, by decide⟩, hn'⟩, by decide⟩
    · intro h; have := hws _ h; simp [isWhitespace] at this
    · intro h; have := ha _ h; simp [isHex] at this
  rw [feed_readline hw p hs, read_header hb hws ha hne hn]
  generalize hq : ({ p with st := (addrDone (p.st.withText a) true).withText (b! "<" ++ n ++ b! ">:") } : OParser) = q
  have hql : q.st.inLabel = true := by rw [← hq]; rfl
  have hqt : q.st.text = b! "<" ++ n ++ b! ">:" := by rw [← hq]; rfl
  have hqf : q.filter = p.filter := by rw [← hq]
  have hlt : labelText q.st.text = n := by rw [hqt, labelText, getLabel_header]; rfl
  have hpr : q.prune.lines = p.prune.lines ∧ q.prune.labels = p.prune.labels := by
    have h1 : q.lines = p.lines := by rw [← hq]
    have h2 : q.labels = p.labels := by rw [← hq]
    unfold OParser.prune OParser.maybeRemoveLastFunction
    rw [hqf, h1, h2]
    cases p.filter.libraryFunctions
    · simp [h1, h2]
    · simp only [↓reduceIte]
      cases p.labels.getLast? with
      | none => exact ⟨h1, h2⟩
      | some x => by_cases h : ((p.lines.drop (x.2 - 1)).any fun l => l.source.isUsercode) = true <;> simp [h, h1, h2]
  have hi' : shouldIgnoreFunction (labelText q.st.text) q.filter = true := by rw [hlt, hqf]; exact hi
  refine eol_cases (p := q) (P := fun r => r.lines = p.prune.lines ∧ r.labels = p.prune.labels ∧ r.st.ignoreUntilNextLabel = true)
    ?_ ?_ ?_ ?_ ?_ ?_ ?_ ?_
  · intro h _; have := h hql; rw [hqt] at this; simp at this
  · intro h _; have := h hql; rw [hqt] at this; simp at this
  · intro h; rw [hql] at h; cases h
  · intro h; rw [hql] at h; cases h
  · intro _ _ _; exact ⟨hpr.1, hpr.2, rfl⟩
  · intro _ _ h; rw [hi'] at h; cases h
  · intro _ _ h; rw [hi'] at h; cases h
  · intro _ _ h; rw [hi'] at h; cases h

end AsmParser
