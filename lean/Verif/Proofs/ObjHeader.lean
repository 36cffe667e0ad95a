/-
Helper lemmas: when a line of an objdump listing is taken for a function header.
-/
import Verif.Proofs.ObjLines

namespace AsmParser

/-- The state between two lines. -/
structure Boundary (s : OState) : Prop where
  addr : s.inAddress = true
  text : s.text = []
  modes : Modes s

theorem Boundary.reset (s : OState) : Boundary s.commonReset := ⟨rfl, rfl, Modes.reset s⟩

theorem Boundary.eol (p : OParser) : Boundary p.eol.st := by
  refine eol_cases (P := fun p => Boundary p.st) ?_ ?_ ?_ ?_ ?_ ?_ ?_ ?_ <;> intros <;> exact Boundary.reset _

theorem Boundary.start (f : Filter) : Boundary (start f).st := ⟨rfl, rfl, Modes.start f⟩

/-- After a complete line the parser is between two lines. -/
theorem Boundary.parse (L : Locale) (f : Filter) (s : Str) (h : s = [] ∨ s.getLast? = some 10) :
    Boundary (objParse L f s).st := by
  have key : ∀ s, (objParse L f s).st.stopParsing = true → Boundary (objParse L f s).st := by
    intro s
    induction s using snoc_induct with
    | nil => intro h; simp [objParse_eq, AsmParser.start] at h
    | snoc s c ih =>
      rw [objParse_append]
      simp only [List.foldl_cons, List.foldl_nil]
      generalize objParse L f s = p at ih
      by_cases hs : p.st.stopParsing = true
      · rw [feed_stop hs]; exact ih
      · have hs := Bool.eq_false_of_ne hs
        refine feed_cases (P := fun p => p.st.stopParsing = true → Boundary p.st) hs ih
          (fun _ _ => Boundary.eol p) (fun _ _ _ h => ?_)
        rw [step_stopParsing, hs] at h; cases h
  rcases h with rfl | h
  · exact Boundary.start f
  · obtain ⟨u, rfl⟩ := List.getLast?_eq_some_iff.1 h
    by_cases hs : (objParse L f u).st.stopParsing = true
    · have := key u hs
      rw [objParse_append, foldl_stop hs]; exact this
    · rw [objParse_append]
      simp only [List.foldl_cons, List.foldl_nil]
      have hs := Bool.eq_false_of_ne hs
      simp only [OParser.feed, hs]
      exact Boundary.eol _

/-- The part of a line that address mode looks at. -/
def clean (w : Str) : Str := (w.filter fun c => c != 13 && c != c! ';').dropWhile isWhitespace

/-- Not the end of the first word. -/
def wordChar (c : Byte) : Bool := !isWhitespace c && c != c! ':' && c != c! '/'

theorem clean_skip {w : Str} {c : Byte} (h : c = 13 ∨ c = c! ';') : clean (w ++ [c]) = clean w := by
  unfold clean
  rcases h with rfl | rfl <;> simp

theorem clean_snoc {w : Str} {c : Byte} (h1 : c ≠ 13) (h2 : c ≠ c! ';') :
    clean (w ++ [c]) = if clean w = [] ∧ isWhitespace c = true then [] else clean w ++ [c] := by
  unfold clean
  have : (w ++ [c]).filter (fun c => c != 13 && c != c! ';') = w.filter (fun c => c != 13 && c != c! ';') ++ [c] := by
    simp [h1, h2]
  rw [this, List.dropWhile_append]
  by_cases he : (w.filter (fun c => c != 13 && c != c! ';')).dropWhile isWhitespace = []
  · cases hw : isWhitespace c <;> simp [he, hw]
  · simp [he]

/-- What the state says about the part of the line read so far. -/
structure LineInv (w : Str) (s : OState) : Prop where
  addr : s.inAddress = true → (∀ c ∈ clean w, wordChar c = true) ∧ s.text = clean w ∧ s.inLabel = false
  done : s.inAddress = false → ∃ word t rest, clean w = word ++ t :: rest ∧ (∀ c ∈ word, wordChar c = true) ∧
    wordChar t = false ∧ (s.inLabel = true → isWhitespace t = true ∧ word ≠ [] ∧ word ≠ b! "Disassembly")

theorem takeWhile_all {α : Type} {q : α → Bool} {l : List α} (h : ∀ c ∈ l, q c = true) : l.takeWhile q = l := by
  induction l with
  | nil => rfl
  | cons a l ih => simp [h a, ih (fun c hc => h c (by simp [hc]))]

theorem LineInv.label {w : Str} {s : OState} (h : LineInv w s) (hl : s.inLabel = true) : headerLike w = true := by
  cases ha : s.inAddress
  · obtain ⟨word, t, rest, h1, h2, h3, h4⟩ := h.done ha
    have h4 := h4 hl
    have e : (clean w).takeWhile wordChar = word := by
      rw [h1, List.takeWhile_append]
      have : word.takeWhile wordChar = word := takeWhile_all h2
      simp [this, h3]
    have e' : headerLike w = ((clean w).takeWhile wordChar != [] && (clean w).takeWhile wordChar != b! "Disassembly" &&
      (((clean w).drop ((clean w).takeWhile wordChar).length).head?).any isWhitespace) := rfl
    rw [e', e, h1, List.drop_left]
    simp [h4.1, h4.2.1, h4.2.2]
  · have := (h.addr ha).2.2; rw [hl] at this; cases this

theorem LineInv.snoc_done {w : Str} {s s' : OState} {c : Byte} (h : LineInv w s) (ha : s.inAddress = false)
    (ha' : s'.inAddress = false) (hl : s'.inLabel = s.inLabel) : LineInv (w ++ [c]) s' := by
  obtain ⟨word, t, rest, h1, h2, h3, h4⟩ := h.done ha
  refine ⟨fun h => by simp [ha'] at h, fun _ => ?_⟩
  by_cases hc : c = 13 ∨ c = c! ';'
  · rw [clean_skip hc]; exact ⟨word, t, rest, h1, h2, h3, by rw [hl]; exact h4⟩
  · simp only [not_or] at hc
    rw [clean_snoc hc.1 hc.2, h1]
    refine ⟨word, t, rest ++ [c], ?_, h2, h3, by rw [hl]; exact h4⟩
    simp

theorem LineInv.step {L : Locale} {f : Filter} {w : Str} {s : OState} {c : Byte} (hm : Modes s)
    (h : LineInv w s) (hc : c ≠ 13) : LineInv (w ++ [c]) (s.step L f c) := by
  have hws : isWhitespace c = true → wordChar c = false := by intro h; simp [wordChar, h]
  have ext : s.inAddress = true → wordChar c = false → c ≠ c! ';' → (isWhitespace c = true → s.text ≠ []) →
      clean (w ++ [c]) = s.text ++ c :: [] ∧ ∀ c ∈ s.text, wordChar c = true := by
    intro ha hwc hne htx
    have h1 := h.addr ha
    rw [clean_snoc hc hne, h1.2.1]
    refine ⟨?_, h1.1⟩
    rw [if_neg]
    rintro ⟨e, hw⟩
    exact htx hw (by rw [h1.2.1]; exact e)
  refine step_cases' (P := LineInv (w ++ [c])) ?_ ?_ ?_ ?_ ?_ ?_ ?_ ?_ ?_ ?_ ?_ ?_ ?_ ?_ ?_ ?_ ?_ ?_ ?_ ?_ ?_ ?_ ?_ ?_ ?_ ?_ ?_ ?_ ?_ ?_
  · -- a_same
    intro ha hcase
    have h1 := h.addr ha
    have e : clean (w ++ [c]) = clean w := by
      by_cases hs : c = c! ';'
      · exact clean_skip (.inr hs)
      · rcases hcase with h' | ⟨hw, ht⟩
        · exact absurd h' hs
        · rw [clean_snoc hc hs, ← h1.2.1, ht]; simp [hw]
    exact ⟨fun _ => by rw [e]; exact h1, fun h => by simp [ha] at h⟩
  · intro ha _ _ _ _; exact h.snoc_done ha ha rfl
  · -- a_app
    intro ha h1 h2 h3 h4
    have h' := h.addr ha
    have e : clean (w ++ [c]) = clean w ++ [c] := by rw [clean_snoc hc h3]; simp [h4]
    refine ⟨fun _ => ?_, fun h => by simp [ha] at h⟩
    rw [e]
    refine ⟨?_, by simp [h'.2.1], h'.2.2⟩
    intro c' hc'
    simp only [List.mem_append, List.mem_singleton] at hc'
    rcases hc' with hc' | rfl
    · exact h'.1 _ hc'
    · simp [wordChar, h4, h1, h2]
  · intro ha _; exact h.snoc_done ha ha rfl
  · intro ha _ _ _ _ _; exact h.snoc_done ha ha rfl
  · intro ha _ _ _; exact h.snoc_done ha ha rfl
  · intro ha _ _ _ _; exact h.snoc_done ha ha rfl
  · intro ha _ _ _ _ _ _; exact h.snoc_done ha ha rfl
  · intro ha _ _ _ _ _ _ _; exact h.snoc_done ha ha rfl
  · intro ha _ _ _ _ _ _; exact h.snoc_done ha ha rfl
  · -- a_slash
    intro ha e
    subst e
    have := ext ha (by decide) (by decide) (fun h => absurd h (by decide))
    exact ⟨fun h => by simp at h, fun _ => ⟨s.text, _, _, this.1, this.2, by decide, fun hl => by
      have := (hm.addr ha).1; simp [this] at hl⟩⟩
  · intro ha e ht
    subst e
    have := ext ha (by decide) (by decide) (fun h => absurd h (by decide))
    exact ⟨fun h => by simp at h, fun _ => ⟨s.text, _, _, this.1, this.2, by decide, fun hl => by
      have := (hm.addr ha).1; simp [this] at hl⟩⟩
  · intro ha e hs
    have := (hm.addr ha).2.2.2.2.2.2.2.2.2.2
    rw [hs] at this; cases this
  · intro ha e hs ht
    subst e
    have := ext ha (by decide) (by decide) (fun h => absurd h (by decide))
    exact ⟨fun h => by simp [addrDone] at h, fun _ => ⟨s.text, _, _, this.1, this.2, by decide, fun hl => by
      have := (hm.addr ha).1; simp [this, addrDone] at hl⟩⟩
  · intro ha hw ht
    have := ext ha (hws hw) (by rintro rfl; simp [isWhitespace] at hw) (fun _ => by rw [ht]; simp)
    exact ⟨fun h => by simp at h, fun _ => ⟨s.text, _, _, this.1, this.2, hws hw, fun hl => by
      have := (hm.addr ha).1; simp [this] at hl⟩⟩
  · intro ha e hs
    have := (hm.addr ha).2.2.2.2.2.2.2.2.2.2
    rw [hs] at this; cases this
  · intro ha hw hs ht hd
    have := ext ha (hws hw) (by rintro rfl; simp [isWhitespace] at hw) (fun _ => ht)
    exact ⟨fun h => by simp [addrDone] at h, fun _ => ⟨s.text, _, _, this.1, this.2, hws hw, fun _ => ⟨hw, ht, hd⟩⟩⟩
  all_goals intro ha; intros; exact h.snoc_done ha ha rfl

/-- Feeding part of a line from a boundary: the line invariant, and nothing else of interest changes. -/
theorem feed_line {L : Locale} {p : OParser} (hs : p.st.stopParsing = false) (hb : Boundary p.st) (w : Str)
    (hw : (10 : Byte) ∉ w) :
    LineInv w (w.foldl (OParser.feed L) p).st ∧ Modes (w.foldl (OParser.feed L) p).st ∧
    (w.foldl (OParser.feed L) p).st.stopParsing = false ∧
    (w.foldl (OParser.feed L) p).st.ignoreUntilNextLabel = p.st.ignoreUntilNextLabel := by
  induction w using snoc_induct with
  | nil =>
    refine ⟨⟨fun _ => ⟨by simp [clean], by simp [hb.text, clean], (hb.modes.addr hb.addr).1⟩, fun h => ?_⟩, hb.modes, hs, rfl⟩
    simp [hb.addr] at h
  | snoc w c ih =>
    simp only [List.mem_append, List.mem_singleton, not_or] at hw
    obtain ⟨h1, h2, h3, h4⟩ := ih hw.1
    rw [List.foldl_append]
    simp only [List.foldl_cons, List.foldl_nil]
    generalize w.foldl (OParser.feed L) p = q at *
    refine ⟨?_, h2.feed c, ?_⟩
    · unfold OParser.feed
      simp only [h3]
      by_cases hc : c = 13
      · subst hc
        simp only [beq_self_eq_true, ↓reduceIte, Bool.false_eq_true]
        cases ha : q.st.inAddress
        · exact h1.snoc_done ha ha rfl
        · refine ⟨fun _ => ?_, fun h => by simp [ha] at h⟩
          rw [clean_skip (.inl rfl)]; exact h1.addr ha
      · have hc10 : c ≠ 10 := fun e => hw.2 e.symm
        simp only [beq_iff_eq, hc, hc10, Bool.false_eq_true, ↓reduceIte]
        by_cases hsk : q.st.skipRestOfTheLine = true
        · simp only [hsk, ↓reduceIte]
          cases ha : q.st.inAddress
          · exact h1.snoc_done ha ha rfl
          · have := (h2.addr ha).2.2.2.2.2.2.2.2.1; rw [hsk] at this; cases this
        · simp only [hsk, Bool.false_eq_true, ↓reduceIte]
          exact h1.step h2 hc
    · refine feed_cases (P := fun r => r.st.stopParsing = false ∧ r.st.ignoreUntilNextLabel = p.st.ignoreUntilNextLabel)
        h3 ⟨h3, h4⟩ (fun h => absurd h.symm hw.2) (fun _ _ _ => ⟨by rw [step_stopParsing]; exact h3, ?_⟩)
      rw [← h4]
      refine step_cases (P := fun s' => s'.ignoreUntilNextLabel = q.st.ignoreUntilNextLabel) ?_ ?_ ?_ ?_ ?_ ?_ ?_ ?_ ?_ ?_ ?_ ?_ ?_ ?_ ?_ ?_ ?_ ?_ ?_ ?_ ?_ ?_ <;> intros <;> rfl

/-- A line that is no header leaves an ignored function ignored and outputs nothing. -/
theorem skip_line {L : Locale} {p : OParser} (hb : Boundary p.st)
    (hi : p.st.ignoreUntilNextLabel = true) (w : Str) (hw : (10 : Byte) ∉ w) (hh : headerLike w = false) :
    ((w ++ [10]).foldl (OParser.feed L) p).lines = p.lines ∧
    ((w ++ [10]).foldl (OParser.feed L) p).labels = p.labels ∧
    Boundary ((w ++ [10]).foldl (OParser.feed L) p).st ∧
    ((w ++ [10]).foldl (OParser.feed L) p).st.ignoreUntilNextLabel = true := by
  by_cases hs : p.st.stopParsing = true
  · rw [foldl_stop hs]; exact ⟨rfl, rfl, hb, hi⟩
  have hs := Bool.eq_false_of_ne hs
  obtain ⟨h1, h2, h3, h4⟩ := feed_line (L := L) hs hb w hw
  have h5 := fold_noeol (L := L) hw p
  rw [List.foldl_append]
  simp only [List.foldl_cons, List.foldl_nil]
  generalize w.foldl (OParser.feed L) p = q at *
  have hl : q.st.inLabel = false := by
    cases hl : q.st.inLabel
    · rfl
    · rw [h1.label hl] at hh; cases hh
  have hq : q.feed L 10 = q.eol := by simp [OParser.feed, h3]
  rw [hq]
  have : q.eol = { q with totalLines := q.totalLines + 1, st := q.st.commonReset } := by
    simp [OParser.eol, hl, OParser.eolTail, h4, hi]
  rw [this]
  exact ⟨h5.1, h5.2.1, Boundary.reset _, by simp [OState.commonReset, h4, hi]⟩

theorem skip_lines {L : Locale} (ts : List Str) {p : OParser} (hb : Boundary p.st)
    (hi : p.st.ignoreUntilNextLabel = true) (hw : ∀ w ∈ ts, (10 : Byte) ∉ w ∧ headerLike w = false) :
    ((unlines ts).foldl (OParser.feed L) p).lines = p.lines ∧
    ((unlines ts).foldl (OParser.feed L) p).labels = p.labels := by
  induction ts generalizing p with
  | nil => exact ⟨rfl, rfl⟩
  | cons w ts ih =>
    have h := skip_line (L := L) hb hi w (hw w (by simp)).1 (hw w (by simp)).2
    have e : unlines (w :: ts) = (w ++ [10]) ++ unlines ts := rfl
    rw [e, List.foldl_append]
    have := ih h.2.2.1 h.2.2.2 (fun w hw' => hw w (by simp [hw']))
    exact ⟨this.1.trans h.1, this.2.trans h.2.1⟩

end AsmParser
