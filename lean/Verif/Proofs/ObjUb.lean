/-
Helper lemmas: when the objdump parser executes no undefined behaviour.
-/
import Verif.Proofs.ObjInstr

namespace AsmParser

theorem firstWord_of {w word : Str} {t : Byte} {rest : Str} (h : clean w = word ++ t :: rest)
    (h2 : ∀ c ∈ word, wordChar c = true) (h3 : wordChar t = false) : firstWord w = word ∧ wordEnd w = some t := by
  have e : firstWord w = word := by
    have : firstWord w = (clean w).takeWhile wordChar := rfl
    rw [this, h, List.takeWhile_append, takeWhile_all h2]
    simp [h3]
  refine ⟨e, ?_⟩
  have : wordEnd w = ((clean w).drop (firstWord w).length).head? := rfl
  rw [this, e, h, List.drop_left]; rfl

/-- `clean` of an extension. -/
theorem clean_append_ne {w : Str} (h : clean w ≠ []) (v : Str) : ∃ r, clean (w ++ v) = clean w ++ r := by
  induction v using snoc_induct with
  | nil => exact ⟨[], by simp⟩
  | snoc v c ih =>
    obtain ⟨r, hr⟩ := ih
    rw [← List.append_assoc]
    by_cases hc : c = 13 ∨ c = c! ';'
    · rw [clean_skip hc]; exact ⟨r, hr⟩
    · simp only [not_or] at hc
      rw [clean_snoc hc.1 hc.2, hr]
      refine ⟨r ++ [c], ?_⟩
      simp [h]

/-- The line so far: no undefined behaviour, and what is known about the text of a source reference. -/
structure UbInv (w u : Str) (s : OState) : Prop where
  line : LineInv u s
  modes : Modes s
  ub : s.ub = false
  src : s.inSourceRef = true → wordEnd w = some c! '/'
  num : s.inSourceRefLineNumber = true → s.skipRestOfTheLine = false → s.text <:+ u.filter (· != 13)
  numk : s.inSourceRefLineNumber = true → s.skipRestOfTheLine = true → s.text = []

theorem decVal_of_infix {w : Str} (hw : SmallNumbers w) (hs : wordEnd w = some c! '/') {t : Str} (ht : t <:+: w.filter (· != 13)) :
    -2147483648 ≤ atoi t ∧ atoi t ≤ 2147483647 := by
  have key : ∀ x : Str, x <:+: t → decVal (x.takeWhile isDigit) < 2147483648 := by
    intro x hx
    refine hw.dec hs _ (((List.takeWhile_prefix _).isInfix.trans hx).trans ht) ?_
    exact fun c hc => List.all_eq_true.1 (List.all_takeWhile (p := isDigit) (l := x)) c hc
  unfold atoi
  have hd : t.dropWhile isSpace <:+: t := (List.dropWhile_suffix _).isInfix
  cases h : t.dropWhile isSpace with
  | nil => simp
  | cons c cs =>
    simp only
    rw [h] at hd
    have h1 := key _ hd
    have h2 := key cs ((List.suffix_cons c cs).isInfix.trans hd)
    by_cases hc : c = c! '-'
    · simp only [hc, beq_self_eq_true, ↓reduceIte]; omega
    · by_cases hc' : c = c! '+'
      · simp only [hc', beq_self_eq_true, ↓reduceIte, show ((c! '+') == c! '-') = false by decide, Bool.false_eq_true]; omega
      · simp only [hc, hc', beq_iff_eq, ↓reduceIte]; omega

theorem srcUb_false {w : Str} (hw : SmallNumbers w) (hs : wordEnd w = some c! '/') {s : OState} (ht : s.text <:+: w.filter (· != 13)) :
    srcUb s = false := by
  have := decVal_of_infix hw hs ht
  simp only [srcUb, decide_eq_false_iff_not]; omega

theorem UbInv.addr {w u : Str} {s : OState} {c : Byte} (hw : SmallNumbers w) (h : UbInv w u s) (hp : u ++ [c] <+: w)
    (ha : s.inAddress = true) (hc : wordChar c = false) (h13 : c ≠ 13) (hsc : c ≠ c! ';') (ht : s.text ≠ []) :
    (addrLoop s.text.reverse {}).ub = false := by
  refine addrLoop_no_ub _ fun x hx => hw.hex x ?_
  obtain ⟨v, rfl⟩ := hp
  have h1 := h.line.addr ha
  have e : clean (u ++ [c]) = s.text ++ [c] := by
    rw [clean_snoc h13 hsc, ← h1.2.1]; simp [ht]
  obtain ⟨r, hr⟩ := clean_append_ne (w := u ++ [c]) (by rw [e]; simp) v
  rw [e] at hr
  have := (firstWord_of (word := s.text) (t := c) (rest := r) (by rw [hr]; simp) (by rw [h1.2.1]; exact h1.1) hc).1
  rw [this]; exact hx

theorem UbInv.step {L : Locale} {f : Filter} {w u : Str} {s : OState} {c : Byte} (hw : SmallNumbers w) (h : UbInv w u s)
    (hp : u ++ [c] <+: w) (hk : s.skipRestOfTheLine = false) (h13 : c ≠ 13) : UbInv w (u ++ [c]) (s.step L f c) := by
  have hl := h.line.step (L := L) (f := f) h.modes h13
  have hm := h.modes.step (L := L) (f := f) (c := c)
  have hfil : (u ++ [c]).filter (· != 13) = u.filter (· != 13) ++ [c] := by simp [h13]
  suffices hh : (s.step L f c).ub = false ∧ ((s.step L f c).inSourceRef = true → wordEnd w = some c! '/') ∧
      ((s.step L f c).inSourceRefLineNumber = true → (s.step L f c).skipRestOfTheLine = false →
        (s.step L f c).text <:+ (u ++ [c]).filter (· != 13)) ∧
      ((s.step L f c).inSourceRefLineNumber = true → (s.step L f c).skipRestOfTheLine = true → (s.step L f c).text = []) from
    ⟨hl, hm, hh.1, hh.2.1, hh.2.2.1, hh.2.2.2⟩
  have hs0 : ∀ ha : s.inAddress = true, s.inSourceRef = false ∧ s.inSourceRefLineNumber = false := fun ha =>
    ⟨(h.modes.addr ha).2.2.2.2.2.1, (h.modes.addr ha).2.2.2.2.2.2.1⟩
  have hsrcf : s.inSourceRef = false → s.inSourceRefLineNumber = false := by
    intro h'; cases hn : s.inSourceRefLineNumber
    · rfl
    · rw [h.modes.src hn] at h'; cases h'
  have hws : isWhitespace c = true → wordChar c = false := by intro h; simp [wordChar, h]
  refine step_cases' (P := fun s' => s'.ub = false ∧ (s'.inSourceRef = true → wordEnd w = some c! '/') ∧
      (s'.inSourceRefLineNumber = true → s'.skipRestOfTheLine = false → s'.text <:+ (u ++ [c]).filter (· != 13)) ∧
      (s'.inSourceRefLineNumber = true → s'.skipRestOfTheLine = true → s'.text = []))
    ?_ ?_ ?_ ?_ ?_ ?_ ?_ ?_ ?_ ?_ ?_ ?_ ?_ ?_ ?_ ?_ ?_ ?_ ?_ ?_ ?_ ?_ ?_ ?_ ?_ ?_ ?_ ?_ ?_ ?_
  · intro ha _; have := hs0 ha; exact ⟨h.ub, h.src, by simp [this], by simp [this]⟩
  · intro _ _ ho _ _
    have h2 := (h.modes.opc ho).2.2.1
    exact ⟨h.ub, h.src, by simp [hsrcf h2], by simp [hsrcf h2]⟩
  · intro ha _ _ _ _; have := hs0 ha; exact ⟨h.ub, h.src, by simp [this], by simp [this]⟩
  · intro _ hl'; have h2 := (h.modes.lbl hl').2.2.2.1
    exact ⟨h.ub, h.src, by simp [hsrcf h2], by simp [hsrcf h2]⟩
  · intro _ _ ho _ _ _
    have h2 := (h.modes.opc ho).2.2.1
    exact ⟨h.ub, h.src, by simp [hsrcf h2], by simp [hsrcf h2]⟩
  · intro _ _ ho _
    have h2 := (h.modes.opc ho).2.2.1
    exact ⟨h.ub, h.src, by simp [hsrcf h2], by simp [hsrcf h2]⟩
  · intro _ _ _ hr _
    have h2 : s.inSourceRef = false := by
      cases h' : s.inSourceRef
      · rfl
      · have := (h.modes.srcref h').2.1; rw [hr] at this; cases this
    exact ⟨h.ub, h.src, by simp [hsrcf h2], by simp [hsrcf h2]⟩
  · intro _ _ _ _ hS _ _
    have h2 : s.inSourceRef = false := by
      cases h' : s.inSourceRef
      · rfl
      · have := (h.modes.srcref h').1; rw [hS] at this; cases this
    exact ⟨h.ub, h.src, by simp [hsrcf h2], by simp [hsrcf h2]⟩
  · -- character of a source reference
    intro _ _ _ _ _ hsr _ hnw
    refine ⟨h.ub, h.src, ?_, by simp [hk]⟩
    intro hn _
    have h1 := h.num hn hk
    have : appText s.text c = s.text ++ [c] := by
      unfold appText; rw [if_neg]; simp [hnw hn]
    simp only [this]
    rw [hfil]
    obtain ⟨x, hx⟩ := h1
    exact ⟨x, by rw [← hx]; simp⟩
  · intro _ _ _ _ _ h2 _; exact ⟨h.ub, h.src, by simp [hsrcf h2], by simp [hsrcf h2]⟩
  · -- slash
    intro ha e
    subst e
    have := hs0 ha
    refine ⟨h.ub, ?_, by simp [this], by simp [this]⟩
    intro _
    obtain ⟨v, rfl⟩ := hp
    have h1 := h.line.addr ha
    have e : clean (u ++ [c! '/']) = s.text ++ [c! '/'] := by
      rw [clean_snoc h13 (by decide), ← h1.2.1, if_neg]; simp [isWhitespace]
    obtain ⟨r, hr⟩ := clean_append_ne (w := u ++ [c! '/']) (by rw [e]; simp) v
    rw [e] at hr
    exact (firstWord_of (word := s.text) (t := c! '/') (rest := r) (by rw [hr]; simp) (by rw [h1.2.1]; exact h1.1) (by decide)).2
  · intro ha _ _; have := hs0 ha; exact ⟨h.ub, by simp [this], by simp [this], by simp [this]⟩
  · intro ha _ _; have := hs0 ha; exact ⟨h.ub, by simp [addrFile, this], by simp [addrFile, this], by simp [addrFile, this]⟩
  · intro ha e _ ht
    have := hs0 ha
    refine ⟨?_, by simp [addrDone, this], by simp [addrDone, this], by simp [addrDone, this]⟩
    simp [addrDone, h.ub, h.addr hw hp ha (by subst e; decide) h13 (by subst e; decide) ht]
  · intro ha _ _; have := hs0 ha; exact ⟨h.ub, by simp [this], by simp [this], by simp [this]⟩
  · intro ha _ _; have := hs0 ha; exact ⟨h.ub, by simp [addrFile, this], by simp [addrFile, this], by simp [addrFile, this]⟩
  · intro ha hwc _ ht _
    have := hs0 ha
    refine ⟨?_, by simp [addrDone, this], by simp [addrDone, this], by simp [addrDone, this]⟩
    simp [addrDone, h.ub, h.addr hw hp ha (hws hwc) h13 (by rintro rfl; simp [isWhitespace] at hwc) ht]
  · intro _ _ ho _ _
    have h2 := (h.modes.opc ho).2.2.1
    exact ⟨h.ub, h.src, by simp [hsrcf h2], by simp [hsrcf h2]⟩
  · intro _ _ ho _
    have h2 := (h.modes.opc ho).2.2.1
    exact ⟨h.ub, h.src, by simp [hsrcf h2], by simp [hsrcf h2]⟩
  · intro _ _ ho _ _
    have h2 := (h.modes.opc ho).2.2.1
    exact ⟨h.ub, h.src, by simp [hsrcf h2], by simp [hsrcf h2]⟩
  · intro _ _ _ hr _
    have h2 : s.inSourceRef = false := by
      cases h' : s.inSourceRef
      · rfl
      · have := (h.modes.srcref h').2.1; rw [hr] at this; cases this
    exact ⟨h.ub, h.src, by simp [hsrcf h2], by simp [hsrcf h2]⟩
  · intro _ _ _ _ hS _ _
    have h2 : s.inSourceRef = false := by
      cases h' : s.inSourceRef
      · rfl
      · have := (h.modes.srcref h').1; rw [hS] at this; cases this
    exact ⟨h.ub, h.src, by simp [hsrcf h2], by simp [hsrcf h2]⟩
  · intro _ _ _ _ hS _ _
    have h2 : s.inSourceRef = false := by
      cases h' : s.inSourceRef
      · rfl
      · have := (h.modes.srcref h').1; rw [hS] at this; cases this
    exact ⟨h.ub, h.src, by simp [hsrcf h2], by simp [hsrcf h2]⟩
  · intro _ _ _ _ hS _ _
    have h2 : s.inSourceRef = false := by
      cases h' : s.inSourceRef
      · rfl
      · have := (h.modes.srcref h').1; rw [hS] at this; cases this
    exact ⟨h.ub, h.src, by simp [hsrcf h2], by simp [hsrcf h2]⟩
  · intro _ _ _ _ _ hsr _
    exact ⟨h.ub, fun _ => h.src hsr, fun _ _ => List.nil_suffix, by simp⟩
  · intro _ _ _ _ _ hsr hn _
    refine ⟨?_, h.src, by simp, by simp⟩
    have : u <+: w := (List.prefix_append u [c]).trans hp
    have hinf : s.text <:+: w.filter (· != 13) := (h.num hn hk).isInfix.trans (this.filter _).isInfix
    simp [h.ub, srcUb_false hw (h.src hsr) hinf]
  all_goals
    intro _ _ _ _ _ h2
    intros
    exact ⟨h.ub, h.src, by simp [hsrcf h2], by simp [hsrcf h2]⟩

theorem read_ub {L : Locale} {f : Filter} {w : Str} (hw : SmallNumbers w) {s : OState} (hb : Boundary s) (hu : s.ub = false) :
    ∀ u, u <+: w → UbInv w u (s.read L f u) := by
  intro u
  induction u using snoc_induct with
  | nil =>
    intro _
    have := hb.modes.addr hb.addr
    refine ⟨⟨fun _ => ⟨by simp [clean], by simp [read_nil, hb.text, clean], this.1⟩, fun h => ?_⟩, hb.modes, hu, ?_, ?_, ?_⟩ <;>
      simp_all [read_nil, hb.addr]
  | snoc u c ih =>
    intro hp
    have h := ih ((List.prefix_append u [c]).trans hp)
    rw [read_append]
    generalize s.read L f u = s' at h
    by_cases hc : c = 13
    · subst hc
      have e : s'.read L f [13] = s' := by simp [OState.read]
      have hfil : (u ++ [13]).filter (· != 13) = u.filter (· != 13) := by simp
      rw [e]
      refine ⟨?_, h.modes, h.ub, h.src, by rw [hfil]; exact h.num, h.numk⟩
      cases ha : s'.inAddress
      · exact h.line.snoc_done ha ha rfl
      · refine ⟨fun _ => ?_, fun h => by simp [ha] at h⟩
        rw [clean_skip (.inl rfl)]; exact h.line.addr ha
    · by_cases hk : s'.skipRestOfTheLine = true
      · rw [read_skip hk]
        refine ⟨?_, h.modes, h.ub, h.src, by simp [hk], h.numk⟩
        cases ha : s'.inAddress
        · exact h.line.snoc_done ha ha rfl
        · have := (h.modes.addr ha).2.2.2.2.2.2.2.2.1; rw [hk] at this; cases this
      · have hk := Bool.eq_false_of_ne hk
        rw [read_one hc hk]
        exact h.step hw hp hk hc

/-- A whole line without undefined behaviour.  `hidx`: the positions of the labels are in range. -/
theorem line_ub {L : Locale} {p : OParser} {w : Str} (hw : SmallNumbers w) (h10 : (10 : Byte) ∉ w) (hb : Boundary p.st)
    (hu : p.st.ub = false) (hidx : ∀ T n i, p.labels = T ++ [(n, i)] → i - 1 ≤ p.lines.length) :
    ((w ++ [10]).foldl (OParser.feed L) p).st.ub = false := by
  by_cases hs : p.st.stopParsing = true
  · rw [foldl_stop hs]; exact hu
  have hs := Bool.eq_false_of_ne hs
  rw [feed_readline h10 p hs]
  have h := read_ub (L := L) (f := p.filter) hw hb hu w (List.prefix_refl _)
  generalize p.st.read L p.filter w = s at h
  generalize hq : ({ p with st := s } : OParser) = q
  have hqs : q.st = s := by rw [← hq]
  have hqu : q.st.ub = false := by rw [hqs]; exact h.ub
  have hpu : q.prune.st.ub = false := by
    refine prune_cases (P := fun r => r.st.ub = false) hqu ?_
    intro T n i _ hT _
    have hT' : p.labels = T ++ [(n, i)] := by rw [← hT, ← hq]
    have := hidx T n i hT'
    have hl : q.lines = p.lines := by rw [← hq]
    simp only [hqu, hl, Bool.false_or, decide_eq_false_iff_not]
    omega
  refine eol_cases (P := fun r => r.st.ub = false) ?_ ?_ ?_ ?_ ?_ ?_ ?_ ?_
  · intros; exact hqu
  · intro _ _ hn
    have hsr : s.inSourceRef = true := h.modes.src (by rw [← hqs]; exact hn)
    have : srcUb q.st = false := by
      rw [hqs]
      refine srcUb_false hw (h.src hsr) ?_
      cases hk : s.skipRestOfTheLine
      · exact (h.num (by rw [← hqs]; exact hn) hk).isInfix
      · rw [h.numk (by rw [← hqs]; exact hn) hk]; exact List.nil_infix
    simp only [updateSourceRef_eq]
    show (q.st.ub || srcUb q.st) = false
    simp [hqu, this]
  · intros; exact hqu
  · intros; exact hqu
  · intros; exact hpu
  · intro hl _ _ hn
    rw [hqs] at hl hn
    have := (h.modes.lbl hl).2.2.2.2.1
    rw [hn] at this; cases this
  · intros; exact hpu
  · intros; exact hpu

end AsmParser
