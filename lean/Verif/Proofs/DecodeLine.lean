/-
Helper lemmas for C73: one whole line.
-/
import Verif.Proofs.Decode

namespace AsmParser

variable {L : Locale} {f : Filter} {s : OState} {c : Carry}

/-! ### The first word -/

theorem margin_read (ha : s.inAddress = true) (ht : s.text = []) (hk : s.skipRestOfTheLine = false) {w : Str} (hw : (13 : Byte) ∉ w)
    (h : ∀ x ∈ w, (isWhitespace x || x == c! ';') = true) : s.read L f w = s := by
  induction w with
  | nil => rfl
  | cons x w ih =>
    simp only [List.mem_cons, not_or] at hw
    have hx := h x (by simp)
    rw [read_cons, read_one (Ne.symm hw.1) hk]
    have e : s.step L f x = s := by
      have h1 : x ≠ c! '/' := by rintro rfl; simp [isWhitespace] at hx
      have h2 : x ≠ c! ':' := by rintro rfl; simp [isWhitespace] at hx
      by_cases h3 : x = c! ';'
      · simp [OState.step, ha, OState.stepAddress, h3]
      · have hx : isWhitespace x = true := by simpa [h3] using hx
        simp [OState.step, ha, OState.stepAddress, h1, h2, h3, hx, ht]
    rw [e]
    exact ih hw.2 (fun y hy => h y (by simp [hy]))

theorem word_read (ha : s.inAddress = true) (hk : s.skipRestOfTheLine = false) {w : Str} (hw : (13 : Byte) ∉ w)
    (h : ∀ x ∈ w, inLeadWord x = true) : s.read L f w = { s with text := s.text ++ w.filter (· != c! ';') } := by
  induction w generalizing s with
  | nil => simp [read_nil]
  | cons x w ih =>
    simp only [List.mem_cons, not_or] at hw
    have hx := h x (by simp)
    simp only [inLeadWord, Bool.and_eq_true, Bool.not_eq_true', bne_iff_ne] at hx
    rw [read_cons, read_one (Ne.symm hw.1) hk]
    by_cases h3 : x = c! ';'
    · have e : s.step L f x = s := by simp [OState.step, ha, OState.stepAddress, h3]
      rw [e, ih ha hk hw.2 (fun y hy => h y (by simp [hy]))]
      simp [h3]
    · have e : s.step L f x = { s with text := s.text ++ [x] } := by
        simp [OState.step, ha, OState.stepAddress, h3, hx, append_eq, appText]
      rw [e, ih (s := { s with text := s.text ++ [x] }) ha hk hw.2 (fun y hy => h y (by simp [hy]))]
      simp [h3]

theorem takeWhile_forall {α : Type} (p : α → Bool) (l : List α) : ∀ x ∈ l.takeWhile p, p x = true := by
  induction l with
  | nil => simp
  | cons a l ih =>
    intro x hx
    rw [List.takeWhile_cons] at hx
    split at hx
    · simp only [List.mem_cons] at hx
      rcases hx with rfl | hx
      · assumption
      · exact ih x hx
    · cases hx

theorem dropWhile_first {α : Type} (p : α → Bool) {l : List α} {a : α} {r : List α} (h : l.dropWhile p = a :: r) : p a = false := by
  induction l with
  | nil => cases h
  | cons b l ih =>
    rw [List.dropWhile_cons] at h
    split at h
    · exact ih h
    · cases h; simp_all

theorem leadWord_read (hb : Boundary s) {w : Str} (hw : (13 : Byte) ∉ w) :
    s.read L f w = ({ s with text := leadWord w } : OState).read L f (afterWord w) := by
  have hk := (hb.modes.addr hb.addr).2.2.2.2.2.2.2.2.1
  have e1 : w = w.takeWhile (fun c => isWhitespace c || c == c! ';') ++ withoutMargin w := by
    unfold withoutMargin; exact (List.takeWhile_append_dropWhile).symm
  have e2 : withoutMargin w = (withoutMargin w).takeWhile inLeadWord ++ afterWord w := by
    unfold afterWord; exact (List.takeWhile_append_dropWhile).symm
  have h1 : (13 : Byte) ∉ w.takeWhile (fun c => isWhitespace c || c == c! ';') := fun h => hw (by rw [e1]; simp [h])
  have h2 : (13 : Byte) ∉ (withoutMargin w).takeWhile inLeadWord := fun h => hw (by rw [e1, e2]; simp [h])
  conv => lhs; rw [e1, e2]
  rw [read_append, read_append, margin_read hb.addr hb.text hk h1 (takeWhile_forall _ _),
    word_read hb.addr hk h2 (takeWhile_forall _ _), hb.text]
  rfl

theorem step_colon {u : OState} (h : u.inAddress = true) (hs : slashText u = false) (ht : u.text ≠ []) :
    u.step L f (c! ':') = addrDone u u.inLabel := by
  rw [← address_done hs ht]
  simp [OState.step, h, OState.stepAddress]

theorem step_blank {u : OState} (h : u.inAddress = true) (hs : slashText u = false) (ht : u.text ≠ [])
    (hd : u.text ≠ b! "Disassembly") {d : Byte} (hw : isWhitespace d = true) : u.step L f d = addrDone u true := by
  have h1 : d ≠ c! '/' := by rintro rfl; simp [isWhitespace] at hw
  have h2 : d ≠ c! ':' := by rintro rfl; simp [isWhitespace] at hw
  have h3 : d ≠ c! ';' := by rintro rfl; simp [isWhitespace] at hw
  have : u.step L f d = { u.address with inAddress := false, inLabel := true } := by
    simp [OState.step, h, OState.stepAddress, h1, h2, h3, hw, ht, hd]
  rw [this, address_done hs ht]
  rfl

/-! ### The end of a line -/

/-- Between two lines. -/
structure CAt (c : Carry) (s : OState) : Prop where
  b : Boundary s
  stop : s.stopParsing = false
  name : s.currentLabelReference.name = []
  sect : s.currentSection = c.sect
  source : s.currentSourceRef = c.source
  ign : s.ignoreUntilNextLabel = c.ign
  opened : s.view.opened = c.opened

/-- The state at the end of a line. -/
structure Ends (L : Locale) (f : Filter) (c : Carry) (k : LineKind) (v : OView) : Prop where
  name : v.name = []
  ign : v.ign = c.ign
  kind : match k with
    | .remark => v.text = [] ∧ v.srcl = false ∧ v.sect = c.sect ∧ v.source = c.source ∧ v.opened = c.opened
    | .section n => v.lab = false ∧ v.text = [] ∧ v.srcl = false ∧ v.sect = n ∧ v.source = c.source ∧ v.opened = c.opened
    | .noSection t => v.lab = false ∧ t ≠ [] ∧ v.text = t ∧ v.srcl = false ∧ v.sect = [] ∧ v.source = c.source ∧
        v.opened = c.opened ∧ v.line = {}
    | .source file n ended => v.lab = false ∧ v.text = (if ended then [] else n) ∧ v.srcl = true ∧ v.sect = c.sect ∧
        v.source = { file, line := if ended then (theReading L).number n else 0, isUsercode := !inLibrary file } ∧
        v.opened = c.opened
    | .header a t => v.lab = true ∧ v.text = t ∧ v.srcl = false ∧ v.sect = c.sect ∧ v.source = c.source ∧
        v.opened = c.opened ∧ v.line = { address := if c.ign then none else some ((theReading L).address a) }
    | .code a b fr r => v.lab = false ∧ v.text = codeText fr r ∧ v.srcl = false ∧ v.sect = c.sect ∧ v.source = c.source ∧
        v.opened = (readRefs (theReading L) (leftOut f.plt) c.opened fr r).2 ∧
        (c.ign = false → v.line = { address := a.map (theReading L).address, opcodes := b,
                                    labels := (readRefs (theReading L) (leftOut f.plt) c.opened fr r).1 })

theorem readRefs_snd (R : Reading) (d d' : Str → Bool) (op : Option Nat) (t r : Str) :
    (readRefs R d op t r).2 = (readRefs R d' op t r).2 := by
  induction r generalizing op t with
  | nil => rfl
  | cons c r ih =>
    simp only [readRefs_cons]
    split
    · rfl
    split
    · exact ih ..
    cases op with
    | none => exact ih ..
    | some k => dsimp only; split <;> exact ih ..

theorem readRefs_ign (ign : Bool) (h : ign = false) :
    readRefs (theReading L) (fun n => ign || shouldIgnoreFunction n f) = readRefs (theReading L) (leftOut f.plt) := by
  have : (fun n => ign || shouldIgnoreFunction n f) = leftOut f.plt := by
    funext n; rw [leftOut_eq, h]; rfl
  rw [this]

theorem addrBad_eq (w : Str) (h : s.text = w) : addrBad s = !(s.ignoreUntilNextLabel || w.all isHex) := by
  unfold addrBad
  rw [h]
  cases s.ignoreUntilNextLabel
  · cases hw : w.all isHex
    · have : ∃ c ∈ w.reverse, isHex c = false := by simpa using hw
      simp [addrLoop_notHex_of this]
    · have : ∀ c ∈ w.reverse, isHex c = true := by simpa using hw
      simp [addrLoop_notHex this]
  · rfl

theorem line_read (h : CAt c s) {w : Str} (hw : (13 : Byte) ∉ w) : Ends L f c (lineKind c.ign w) (s.read L f w).view := by
  rw [leadWord_read h.b hw]
  obtain ⟨m1, m2, m3, m4, m5, m6, m7, m8, m9, m10, m11⟩ := h.b.modes.addr h.b.addr
  have hlw : ∀ x ∈ leadWord w, inLeadWord x = true := by
    intro x hx
    exact takeWhile_forall _ _ x (List.mem_filter.1 hx).1
  have hcol : c! ':' ∉ leadWord w := fun hx => by have := hlw _ hx; simp [inLeadWord] at this
  have hsl : ∀ r, (leadWord w).head? = some r → r ≠ c! '/' := by
    rintro r hr rfl
    have := hlw _ (List.mem_of_mem_head? hr)
    simp [inLeadWord] at this
  have h13 : (13 : Byte) ∉ afterWord w := by
    intro hx
    exact hw ((List.dropWhile_suffix _).subset ((List.dropWhile_suffix _).subset hx))
  unfold lineKind
  have hgap : afterWord w = [] ∨ ∃ d r, afterWord w = d :: r ∧ inLeadWord d = false := by
    cases ha : afterWord w with
    | nil => exact .inl rfl
    | cons d r => exact .inr ⟨d, r, rfl, dropWhile_first _ ha⟩
  have hlead : afterWord w ≠ [] → ∀ d r, afterWord w = d :: r → isWhitespace d = true → leadWord w ≠ [] := by
    intro _ d r ha hd hl
    have e2 : withoutMargin w = (withoutMargin w).takeWhile inLeadWord ++ afterWord w := by
      unfold afterWord; exact (List.takeWhile_append_dropWhile).symm
    cases ht : (withoutMargin w).takeWhile inLeadWord with
    | nil =>
      rw [ht, ha] at e2
      have := dropWhile_first _ (e2 : w.dropWhile _ = d :: r)
      simp [hd] at this
    | cons x xs =>
      rw [ht] at e2
      have hx := dropWhile_first _ (e2 : w.dropWhile _ = x :: (xs ++ afterWord w))
      unfold leadWord at hl
      rw [ht] at hl
      simp only [Bool.or_eq_false_iff, beq_eq_false_iff_ne] at hx
      simp [hx.2] at hl
  rcases hgap with ha | ⟨d, r, ha, hd⟩
  · rw [ha]
    simp only [read_nil]
    refine ⟨h.name, h.ign, ?_⟩
    simp only [codeText_nil, readRefs]
    exact ⟨m1, rfl, m7, h.sect, h.source, h.opened, fun _ => m10⟩
  rw [ha] at h13
  simp only [List.mem_cons, not_or] at h13
  rw [ha, read_cons, read_one (s := { s with text := leadWord w }) (Ne.symm h13.1) m9]
  dsimp only
  by_cases h1 : d = c! '/'
  · subst h1
    simp only [if_true]
    have e : ({ s with text := leadWord w } : OState).step L f (c! '/') =
        { s with inAddress := false, inSourceRef := true, text := leadWord w ++ [c! '/'] } := by
      simp [OState.step, h.b.addr, OState.stepAddress, append_eq, appText, isWhitespace]
    rw [e]
    have := path_read (L := L) (f := f) (s := { s with inAddress := false, inSourceRef := true, text := leadWord w ++ [c! '/'] })
      ⟨rfl, m1, m2, m3, m4, rfl, m9⟩ m7 (by simp) (by simp [hcol]) h13.2
    simp only [List.append_assoc, List.singleton_append] at this
    rcases this with ⟨g1, g2⟩ | ⟨f', n, en, g1, g2⟩
    · rw [g1, g2]
      refine ⟨h.name, h.ign, ?_⟩
      simp only [codeText_nil, readRefs]
      exact ⟨m1, trivial, m7, h.sect, h.source, h.opened, fun _ => m10⟩
    · rw [g1, g2]
      exact ⟨h.name, h.ign, m1, rfl, rfl, h.sect, rfl, h.opened⟩
  simp only [h1, if_false]
  by_cases h2 : d = c! ':'
  · subst h2
    simp only [if_true]
    by_cases ht : leadWord w = []
    · simp only [ht, if_true]
      have e : ({ s with text := ([] : Str) } : OState).step L f (c! ':') =
          { s with inAddress := false, inOpcodes := false, text := [] } := by
        simp [OState.step, h.b.addr, OState.stepAddress, address_nil]
      rw [e]
      have := txt_read (L := L) (f := f) (s := { s with inAddress := false, inOpcodes := false, text := [] })
        ⟨rfl, m1, rfl, m3, m4, m6, m9⟩ m8 h.name h13.2
      dsimp only at this
      rw [this]
      have ho : ({ s with inAddress := false, inOpcodes := false, text := ([] : Str) } : OState).view.opened = c.opened := h.opened
      refine ⟨h.name, h.ign, m1, rfl, m7, h.sect, h.source, ?_, ?_⟩
      · rw [ho]; exact readRefs_snd ..
      · intro hi
        rw [ho, readRefs_ign _ (h.ign.trans hi)]
        simp [OState.view, m10]
    simp only [ht, if_false]
    have e : ({ s with text := leadWord w } : OState).step L f (c! ':') = addrDone { s with text := leadWord w } false := by
      have hs : slashText ({ s with text := leadWord w } : OState) = false := by
        unfold slashText
        cases hl : (leadWord w).head? with
        | none => simp
        | some x => simpa [hl] using hsl x hl
      exact (step_colon (u := { s with text := leadWord w }) h.b.addr hs ht).trans (by rw [m1])
    rw [e]
    unfold addrDone
    rw [addrBad_eq (leadWord w) rfl]
    cases hnum : (c.ign || (leadWord w).all isHex)
    · have hnum' : (s.ignoreUntilNextLabel || (leadWord w).all isHex) = false := by rw [h.ign]; exact hnum
      have hi : c.ign = false := by simpa using (Bool.or_eq_false_iff.1 hnum).1
      simp only [hnum', Bool.not_false, if_true, Bool.or_true]
      rw [read_skip rfl]
      exact ⟨h.name, h.ign, rfl, m7, h.sect, h.source, h.opened⟩
    · have hnum' : (s.ignoreUntilNextLabel || (leadWord w).all isHex) = true := by rw [h.ign]; exact hnum
      simp only [hnum', Bool.not_true, Bool.or_false, if_true]
      let s2 : OState := { s with
        inAddress := false, inLabel := false, inOpcodes := true, text := []
        currentLine := { s.currentLine with address := if s.ignoreUntilNextLabel then s.currentLine.address
                                                       else some (addrLoop (leadWord w).reverse {}).addr }
        ub := s.ub || (!s.ignoreUntilNextLabel && (addrLoop (leadWord w).reverse {}).ub) }
      have := opc_read (L := L) (f := f) (s := s2)
        ⟨rfl, rfl, rfl, m3, m4, m6, m9, m8, h.name, by simp [s2, m10]⟩ h13.2
      dsimp only at this
      have ho : s2.view.opened = c.opened := h.opened
      have hig : s2.ignoreUntilNextLabel = c.ign := h.ign
      rw [ho] at this
      refine Ends.mk ?_ ?_ ?_
      · exact (congrArg OView.name this).trans h.name
      · exact (congrArg OView.ign this).trans h.ign
      · dsimp only
        refine ⟨congrArg OView.lab this, congrArg OView.text this, (congrArg OView.srcl this).trans m7,
          (congrArg OView.sect this).trans h.sect, (congrArg OView.source this).trans h.source,
          (congrArg OView.opened this).trans (readRefs_snd ..), fun hi => (congrArg OView.line this).trans ?_⟩
        rw [readRefs_ign _ (hig.trans hi)]
        simp [OState.view, s2, m10, h.ign, hi, theReading]
  simp only [h2, if_false]
  have hws : isWhitespace d = true := by
    simp only [inLeadWord, Bool.and_eq_false_iff, Bool.not_eq_false', bne_eq_false_iff_eq] at hd
    rcases hd with (hd | hd) | hd
    · exact hd
    · exact absurd hd h2
    · exact absurd hd h1
  have ht := hlead (by rw [ha]; simp) d r ha hws
  have hsem : d ≠ c! ';' := by rintro rfl; simp [isWhitespace] at hws
  by_cases h3 : leadWord w = b! "Disassembly"
  · simp only [h3, if_true]
    have e : ({ s with text := b! "Disassembly" } : OState).step L f d =
        { s with inAddress := false, inSectionStart := true, currentSection := [], text := b! "Disassembly" ++ [d] } := by
      simp [OState.step, h.b.addr, OState.stepAddress, append_eq, appText, h1, h2, hsem, hws]
    rw [e]
    have := sec_read (L := L) (f := f)
      (s := { s with inAddress := false, inSectionStart := true, currentSection := [], text := b! "Disassembly" ++ [d] })
      ⟨rfl, m1, m2, m3, rfl, m9⟩ m5 rfl (by simp) (by
        right
        intro hp
        have := hp.length_le
        simp at this) h13.2
    simp only [List.append_assoc, List.singleton_append] at this
    rw [this]
    have hk : ∀ t, (∃ n, sectionLine t = .section n) ∨ sectionLine t = .noSection t := by
      intro t
      unfold sectionLine
      split
      · exact .inl ⟨_, rfl⟩
      · exact .inr rfl
    rcases hk (b! "Disassembly" ++ d :: r) with ⟨n, hn⟩ | hn
    · rw [hn]
      exact ⟨h.name, h.ign, m1, rfl, m7, rfl, h.source, h.opened⟩
    · rw [hn]
      exact ⟨h.name, h.ign, m1, by simp, rfl, m7, rfl, h.source, h.opened, m10⟩
  simp only [h3, if_false]
  have e : ({ s with text := leadWord w } : OState).step L f d = addrDone { s with text := leadWord w } true := by
    have hs : slashText ({ s with text := leadWord w } : OState) = false := by
      unfold slashText
      cases hl : (leadWord w).head? with
      | none => simp
      | some x => simpa [hl] using hsl x hl
    exact step_blank (u := { s with text := leadWord w }) h.b.addr hs ht h3 hws
  rw [e]
  unfold addrDone
  rw [addrBad_eq (leadWord w) rfl]
  cases hnum : (c.ign || (leadWord w).all isHex)
  · have hnum' : (s.ignoreUntilNextLabel || (leadWord w).all isHex) = false := by rw [h.ign]; exact hnum
    simp only [hnum', Bool.not_false, if_true, Bool.or_true]
    rw [read_skip rfl]
    exact ⟨h.name, h.ign, rfl, m7, h.sect, h.source, h.opened⟩
  · have hnum' : (s.ignoreUntilNextLabel || (leadWord w).all isHex) = true := by rw [h.ign]; exact hnum
    simp only [hnum', Bool.not_true, Bool.or_false, if_true]
    let s2 : OState := { s with
      inAddress := false, inLabel := true, inOpcodes := true, text := []
      currentLine := { s.currentLine with address := if s.ignoreUntilNextLabel then s.currentLine.address
                                                     else some (addrLoop (leadWord w).reverse {}).addr }
      ub := s.ub || (!s.ignoreUntilNextLabel && (addrLoop (leadWord w).reverse {}).ub) }
    have := lab_read (L := L) (f := f) (s := s2) rfl rfl m9 h13.2
    refine Ends.mk ?_ ?_ ?_
    · exact (congrArg OView.name this).trans h.name
    · exact (congrArg OView.ign this).trans h.ign
    · dsimp only
      refine ⟨congrArg OView.lab this, (congrArg OView.text this).trans ?_, (congrArg OView.srcl this).trans m7,
        (congrArg OView.sect this).trans h.sect, (congrArg OView.source this).trans h.source,
        (congrArg OView.opened this).trans h.opened, (congrArg OView.line this).trans ?_⟩
      · simp [codeText, s2]
      · simp [OState.view, s2, m10, h.ign, theReading]

end AsmParser
