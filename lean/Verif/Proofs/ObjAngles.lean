/-
Helper lemmas: the label references of the lines of binary mode are the names in angle brackets.
-/
import Verif.Proofs.ObjRefs
import Verif.Proofs.Ignore
import Verif.Proofs.TextRead
import Verif.Spec.Angles

namespace AsmParser

attribute [local irreducible] Re.search Re.fullMatch

/-! ### Adding a character to the text -/

/-- The last `<` with no mark after it: the text up to it and what follows. -/
def openSpan : Str → Str → Option (Str × Str)
  | _, [] => none
  | pre, c :: s =>
    match openSpan (pre ++ [c]) s with
    | some x => some x
    | none => if c = c! '<' ∧ s.all (fun c => !angleMark c) = true then some (pre ++ [c], s) else none

theorem openSpan_eq {pre t : Str} {x : Str × Str} (h : openSpan pre t = some x) : pre ++ t = x.1 ++ x.2 := by
  induction t generalizing pre with
  | nil => simp [openSpan] at h
  | cons c t ih =>
    rw [openSpan] at h
    split at h
    · rename_i y hy
      cases h
      rw [← ih hy]; simp
    · split at h
      · cases h; simp
      · cases h

theorem openSpan_none {pre t : Str} (h : t.all (fun c => !angleMark c) = true) : openSpan pre t = none := by
  induction t generalizing pre with
  | nil => rfl
  | cons c t ih =>
    simp only [List.all_cons, Bool.and_eq_true] at h
    rw [openSpan, ih h.2]
    simp only
    rw [if_neg]
    rintro ⟨rfl, -⟩
    exact absurd h.1 (by decide)

theorem openSpan_snoc (pre t : Str) (c : Byte) : openSpan pre (t ++ [c]) =
    if c = c! '<' then some (pre ++ t ++ [c], []) else if c = c! '>' ∨ c = c! '+' then none
    else (openSpan pre t).map fun x => (x.1, x.2 ++ [c]) := by
  induction t generalizing pre with
  | nil =>
    simp only [List.nil_append, openSpan, List.all_nil, and_true, List.append_nil]
    split
    · rfl
    · split <;> rfl
  | cons d t ih =>
    rw [List.cons_append, openSpan, ih, openSpan]
    by_cases h1 : c = c! '<'
    · simp [h1]
    by_cases h2 : c = c! '>' ∨ c = c! '+'
    · rw [if_neg h1, if_pos h2, if_neg h1, if_pos h2]
      simp only
      rw [if_neg]
      rintro ⟨-, h⟩
      rw [List.all_append] at h
      rcases h2 with rfl | rfl <;> simp [angleMark] at h
    · rw [if_neg h1, if_neg h2, if_neg h1, if_neg h2]
      have hm : angleMark c = false := by
        simp only [not_or] at h2
        simp [angleMark, h1, h2.1, h2.2]
      cases ho : openSpan (pre ++ [d]) t with
      | some x => simp
      | none =>
        simp only [Option.map_none, List.all_append, List.all_cons, List.all_nil, hm, Bool.not_false, Bool.and_true]
        split <;> rfl

theorem upToMark_snoc (t : Str) (c : Byte) : upToMark (t ++ [c]) =
    if t.all (fun c => !angleMark c) = true then (if c = c! '>' ∨ c = c! '+' then some t else none) else upToMark t := by
  induction t with
  | nil =>
    simp only [List.nil_append, List.all_nil, if_true, upToMark]
    by_cases h : angleMark c = true
    · simp only [List.dropWhile_cons, h, Bool.not_true, List.takeWhile_cons]
      simp only [angleMark, Bool.or_eq_true, beq_iff_eq] at h
      rcases h with (rfl | rfl) | rfl <;> rfl
    · have h : angleMark c = false := by simpa using h
      simp only [List.dropWhile_cons, h, Bool.not_false, if_true, List.dropWhile_nil]
      rw [if_neg]
      rintro (rfl | rfl) <;> cases h
  | cons d t ih =>
    by_cases h : angleMark d = true
    · rw [if_neg (by simp [h])]
      simp [upToMark, h]
    · have h : angleMark d = false := by simpa using h
      have e : ∀ u, upToMark (d :: u) = (upToMark u).map (d :: ·) := by
        intro u
        unfold upToMark
        simp only [List.dropWhile_cons, h, Bool.not_false, if_true, List.takeWhile_cons]
        split
        · split <;> rfl
        · rfl
      rw [List.cons_append, e, ih, e]
      simp only [List.all_cons, h, Bool.not_false, Bool.true_and]
      split
      · split <;> rfl
      · rfl

theorem angleSpans_none {pre t : Str} (h : t.all (fun c => !angleMark c) = true) : angleSpans pre t = [] := by
  induction t generalizing pre with
  | nil => rfl
  | cons c t ih =>
    simp only [List.all_cons, Bool.and_eq_true] at h
    rw [angleSpans, ih h.2, if_neg]
    · rfl
    · rintro rfl; exact absurd h.1 (by decide)

theorem upToMark_none {t : Str} (h : t.all (fun c => !angleMark c) = true) : upToMark t = none := by
  have : t.dropWhile (fun c => !angleMark c) = [] := by
    induction t with
    | nil => rfl
    | cons c t ih =>
      simp only [List.all_cons, Bool.and_eq_true] at h
      rw [List.dropWhile_cons, if_pos h.1]; exact ih h.2
  rw [upToMark, this]

theorem angleSpans_snoc (pre t : Str) (c : Byte) : angleSpans pre (t ++ [c]) =
    angleSpans pre t ++ if c = c! '>' ∨ c = c! '+' then (openSpan pre t).toList else [] := by
  induction t generalizing pre with
  | nil =>
    simp only [List.nil_append, angleSpans, openSpan, Option.toList_none, ite_self, List.append_nil]
    split <;> rfl
  | cons d t ih =>
    rw [List.cons_append, angleSpans, ih, angleSpans, openSpan]
    by_cases ha : t.all (fun c => !angleMark c) = true
    · rw [openSpan_none ha, angleSpans_none ha, upToMark_snoc, if_pos ha, upToMark_none ha]
      by_cases hd : d = c! '<'
      · by_cases hc : c = c! '>' ∨ c = c! '+'
        · simp [hd, hc, ha]
        · simp [hd, hc]
      · simp [hd]
    · rw [upToMark_snoc, if_neg ha, List.append_assoc]
      congr 1
      congr 1
      split
      · cases openSpan (pre ++ [d]) t with
        | some x => rfl
        | none => simp [ha]
      · rfl

theorem beforeHash_snoc (t : Str) (c : Byte) : beforeHash (t ++ [c]) =
    if c! '#' ∈ t then beforeHash t else if c = c! '#' then t else t ++ [c] := by
  induction t with
  | nil =>
    unfold beforeHash
    simp only [List.nil_append, List.takeWhile_cons, List.takeWhile_nil, List.not_mem_nil, if_false]
    by_cases h : c = c! '#' <;> simp [h]
  | cons d t ih =>
    unfold beforeHash at *
    rw [List.cons_append, List.takeWhile_cons, List.takeWhile_cons, ih]
    by_cases h : d = c! '#'
    · simp [h]
    · have : (c! '#' ∈ d :: t) ↔ c! '#' ∈ t := by
        simp only [List.mem_cons]
        exact ⟨fun h' => h'.resolve_left fun e => h e.symm, .inr⟩
      simp only [this, ne_eq, h, not_false_eq_true, decide_true, if_true]
      split
      · rfl
      · split <;> rfl

theorem beforeHash_id {t : Str} (h : c! '#' ∉ t) : beforeHash t = t := by
  unfold beforeHash
  induction t with
  | nil => rfl
  | cons d t ih =>
    simp only [List.mem_cons, not_or] at h
    rw [List.takeWhile_cons, if_pos (by simpa using fun e => h.1 e.symm), ih h.2]

/-! ### An unclosed bracket -/

/-- The line so far. -/
def curLine (u : Str) : Str := (u.reverse.takeWhile (· ≠ 10)).reverse

theorem curLine_snoc (u : Str) {c : Byte} (h : c ≠ 10) : curLine (u ++ [c]) = curLine u ++ [c] := by
  simp [curLine, h]

theorem curLine_nl (u : Str) : curLine (u ++ [10]) = [] := by simp [curLine]

theorem curLine_skip (a b : Str) : curLine (a ++ 10 :: b) = curLine b := by
  unfold curLine
  rw [List.reverse_append, List.reverse_cons, List.append_assoc]
  congr 1
  generalize b.reverse = y
  induction y with
  | nil => simp
  | cons c y ih =>
    rw [List.cons_append, List.takeWhile_cons, List.takeWhile_cons, ih]

theorem curLine_id {a : Str} (h : 10 ∉ a) : curLine a = a := by
  unfold curLine
  have h : 10 ∉ a.reverse := by simpa using h
  have e : a.reverse.takeWhile (· ≠ 10) = a.reverse := by
    generalize a.reverse = y at h
    induction y with
    | nil => rfl
    | cons c y ih =>
      simp only [List.mem_cons, not_or] at h
      rw [List.takeWhile_cons, if_pos (by simpa using fun e => h.1 e.symm), ih h.2]
  rw [e, List.reverse_reverse]

theorem mem_linesFrom (cur u r : Str) (hc : 10 ∉ cur) : curLine (cur ++ u) ∈ inputLinesFrom cur (u ++ 10 :: r) := by
  induction u generalizing cur with
  | nil =>
    rw [List.append_nil, curLine_id hc, List.nil_append, inputLinesFrom, if_pos rfl]
    exact List.mem_cons_self
  | cons c u ih =>
    rw [List.cons_append, inputLinesFrom]
    split
    · rename_i h
      subst h
      rw [curLine_skip]
      exact List.mem_cons_of_mem _ (ih [] (by simp))
    · rename_i h
      have := ih (cur ++ [c]) (by simp [hc]; exact fun e => h e.symm)
      simpa using this

theorem mem_inputLines {u : Str} {whole : Str} (h : u ++ [10] <+: whole) : curLine u ∈ inputLines whole := by
  obtain ⟨r, rfl⟩ := h
  have := mem_linesFrom [] u r (by simp)
  simpa [inputLines] using this

/-- What follows a `<` does not close it. -/
def Unclosed (b : Str) : Prop := ∀ x c r, b = x ++ c :: r → (c = c! '>' ∨ c = c! '+') → c! '#' ∈ x

theorem Unclosed.snoc {b : Str} (h : Unclosed b) {c : Byte} (hc : c! '#' ∈ b ∨ c ≠ c! '>' ∧ c ≠ c! '+') : Unclosed (b ++ [c]) := by
  intro x d r e hd
  rcases List.eq_nil_or_concat r with rfl | ⟨r', z, rfl⟩
  · have e' : b ++ [c] = x ++ [d] := e
    obtain ⟨rfl, e2⟩ := List.append_inj' e' rfl
    cases e2
    rcases hc with h | h
    · exact h
    · rcases hd with rfl | rfl
      · exact absurd rfl h.1
      · exact absurd rfl h.2
  · have e' : b ++ [c] = (x ++ d :: r') ++ [z] := by rw [e]; simp
    obtain ⟨rfl, -⟩ := List.append_inj' e' rfl
    exact h x d r' rfl hd

theorem Unclosed.not {line a b : Str} (h : AnglesClosed line) (e : line = a ++ c! '<' :: b) : ¬ Unclosed b := by
  intro hu
  obtain ⟨x, c, r, rfl, hc, hn⟩ := h a b e
  exact hn (hu x c r rfl hc)

/-- The line is one in which label references are looked for. -/
def TextMode (s : OState) : Prop :=
  s.inAddress = false ∧ s.inLabel = false ∧ s.inOpcodes = false ∧ s.inRelocation = false ∧ s.inSectionStart = false ∧
    s.inSourceRef = false ∧ s.skipRestOfTheLine = false

structure AngInv (u : Str) (s : OState) : Prop where
  name : s.currentLabelReference.name = []
  opn : s.stopParsing = false → s.inSomethingWithALabel = true → TextMode s ∧
    ∃ a b, curLine u = a ++ c! '<' :: b ∧ Unclosed b ∧ (s.inComment = true → c! '#' ∈ b)

theorem AngInv.step {L : Locale} {f : Filter} {u : Str} {s : OState} {c : Byte} (h : AngInv u s) (hs : s.stopParsing = false)
    (hk : s.skipRestOfTheLine = false) (hc : c ≠ 10) : AngInv (u ++ [c]) (s.step L f c) := by
  have ex : ∀ {p : Prop}, (TextMode s → False) → s.inSomethingWithALabel = true → p := fun h1 h2 => (h1 (h.opn hs h2).1).elim
  refine step_cases' (P := AngInv (u ++ [c])) ?_ ?_ ?_ ?_ ?_ ?_ ?_ ?_ ?_ ?_ ?_ ?_ ?_ ?_ ?_ ?_ ?_ ?_ ?_ ?_ ?_ ?_ ?_ ?_ ?_ ?_ ?_ ?_ ?_ ?_
  case refine_10 =>
    intro h1 h2 h3 h4 h5 h6 h7
    refine ⟨h.name, fun _ ho => ⟨⟨h1, h2, h3, h4, h5, h6, hk⟩, ?_⟩⟩
    obtain ⟨-, a, b, e, hu, hh⟩ := h.opn hs ho
    refine ⟨a, b ++ [c], by rw [curLine_snoc u hc, e]; simp, hu.snoc ?_, fun h => List.mem_append_left _ (hh h)⟩
    cases hi : s.inComment with
    | true => exact .inl (hh hi)
    | false => exact .inr ((h7 hi).2.2 ho)
  case refine_27 =>
    intro h1 h2 h3 h4 h5 h6 h7 h8
    refine ⟨h.name, fun _ ho => ⟨⟨h1, h2, h3, h4, h5, h6, hk⟩, ?_⟩⟩
    obtain ⟨-, a, b, e, hu, hh⟩ := h.opn hs ho
    subst h8
    exact ⟨a, b ++ [c! '#'], by rw [curLine_snoc u hc, e]; simp, hu.snoc (.inr (by decide)), fun _ => by simp⟩
  case refine_28 =>
    intro h1 h2 h3 h4 h5 h6 h7 h8
    refine ⟨h.name, fun _ ho => ⟨⟨h1, h2, h3, h4, h5, h6, hk⟩, curLine u, [], by rw [curLine_snoc u hc, h8], ?_, ?_⟩⟩
    · intro x d r e; simp at e
    · intro h'; rw [show s.inComment = false from h7] at h'; cases h'
  case refine_29 => intros; exact ⟨h.name, fun _ ho => by simp at ho⟩
  case refine_30 => intros; exact ⟨rfl, fun _ ho => by simp at ho⟩
  all_goals
    intros
    first
      | exact ⟨h.name, fun _ ho => ex (by unfold TextMode; simp_all) ho⟩
      | (unfold addrFile; exact ⟨h.name, fun _ ho => ex (by unfold TextMode; simp_all) ho⟩)
      | (unfold addrDone; exact ⟨h.name, fun _ ho => ex (by unfold TextMode; simp_all) ho⟩)

/-- The characters before an ASCII character are counted correctly. -/
def Counted (L : Locale) (t : Str) : Prop := ∀ a c b, t = a ++ c :: b → c < 128 → ustrlen L a = charCount a

theorem Counted.pre {L : Locale} {t : Str} {c : Byte} (h : Counted L (t ++ [c])) : Counted L t :=
  fun a d b e hd => h a d (b ++ [c]) (by rw [e]; simp) hd

theorem Counted.last {L : Locale} {t : Str} {c : Byte} (h : Counted L (t ++ [c])) (hc : c < 128) : ustrlen L t = charCount t :=
  h t c [] rfl hc

theorem charCount_le (s : Str) : charCount s ≤ s.length := List.length_filter_le _ _

theorem charCount_append (a b : Str) : charCount (a ++ b) = charCount a + charCount b := by
  simp [charCount]

/-- The reference that is made for a name in brackets. -/
def spanRef (x : Str × Str) : AsmLabel := ⟨x.1.drop (charCount x.1) ++ x.2, charCount x.1, charCount (x.1 ++ x.2)⟩

/-- The references found so far, if the characters are counted correctly and are few. -/
structure RefInv (f : Filter) (s : OState) : Prop where
  com : s.inComment = true ↔ c! '#' ∈ s.text
  labels : s.currentLine.labels = ((angleSpans [] (beforeHash s.text)).map spanRef).filter fun r => !shouldIgnoreFunction r.name f
  opn : s.inComment = false → s.inSomethingWithALabel = true → ∃ x, openSpan [] s.text = some x ∧ s.currentLabelReference.startCol = charCount x.1
  cls : s.inComment = false → s.inSomethingWithALabel = false → openSpan [] s.text = none

def RefInv' (L : Locale) (f : Filter) (s : OState) : Prop :=
  s.currentLine.opcodes ≠ [] → TextMode s ∧ s.ignoreUntilNextLabel = false ∧
    (Counted L s.text → s.text.length ≤ 65534 → RefInv f s)

/-- A character that is no mark, or in a comment. -/
theorem RefInv.app {f : Filter} {s s' : OState} {c : Byte} (h : RefInv f s) (h1 : s'.inComment = s.inComment) (h2 : s'.currentLine = s.currentLine)
    (h3 : s'.inSomethingWithALabel = s.inSomethingWithALabel) (h4 : s'.currentLabelReference = s.currentLabelReference)
    (ht : s'.text = s.text ++ [c])
    (hc : s.inComment = false → c ≠ c! '#' ∧ c ≠ c! '<' ∧ (s.inSomethingWithALabel = true → c ≠ c! '>' ∧ c ≠ c! '+')) : RefInv f s' := by
  cases hi : s.inComment with
  | true =>
    have hh := h.com.1 hi
    refine ⟨?_, ?_, ?_, ?_⟩
    · rw [h1, ht, hi]; simp [hh]
    · rw [h2, ht, beforeHash_snoc, if_pos hh]; exact h.labels
    · intro h'; rw [h1, hi] at h'; cases h'
    · intro h'; rw [h1, hi] at h'; cases h'
  | false =>
    have hh : c! '#' ∉ s.text := fun h' => by rw [h.com.2 h'] at hi; cases hi
    obtain ⟨c1, c2, c3⟩ := hc hi
    have hin : ¬ (c = c! '>' ∨ c = c! '+') ∨ openSpan [] s.text = none := by
      cases ho : s.inSomethingWithALabel with
      | true => exact .inl (by rintro (h | h); exact (c3 ho).1 h; exact (c3 ho).2 h)
      | false => exact .inr (h.cls hi ho)
    have hnames : (if c = c! '>' ∨ c = c! '+' then (openSpan [] s.text).toList else []) = [] := by
      rcases hin with h | h
      · rw [if_neg h]
      · rw [h]; simp
    refine ⟨?_, ?_, ?_, ?_⟩
    · rw [h1, ht, hi]; simp [hh]; exact fun e => c1 e.symm
    · rw [h2, ht, beforeHash_snoc, if_neg hh, if_neg c1, angleSpans_snoc, hnames, List.append_nil, h.labels, beforeHash_id hh]
    · intro _ ho
      rw [h3] at ho
      obtain ⟨x, hb, hx⟩ := h.opn hi ho
      rw [ht, openSpan_snoc, if_neg c2, if_neg (by rintro (h | h); exact (c3 ho).1 h; exact (c3 ho).2 h), hb, h4]
      exact ⟨_, rfl, hx⟩
    · intro _ ho
      rw [h3] at ho
      rw [ht, openSpan_snoc, if_neg c2, h.cls hi ho]
      split <;> rfl

theorem RefInv'.step {L : Locale} {f : Filter} {u : Str} {s : OState} {c : Byte} (hm : Modes s) (ha : AngInv u s) (h : RefInv' L f s)
    (hs : s.stopParsing = false) (hk : s.skipRestOfTheLine = false) : RefInv' L f (s.step L f c) := by
  refine step_cases' (P := RefInv' L f) ?_ ?_ ?_ ?_ ?_ ?_ ?_ ?_ ?_ ?_ ?_ ?_ ?_ ?_ ?_ ?_ ?_ ?_ ?_ ?_ ?_ ?_ ?_ ?_ ?_ ?_ ?_ ?_ ?_ ?_
  case refine_10 =>
    intro h1 h2 h3 h4 h5 h6 h7 hop
    obtain ⟨-, hig, hr⟩ := h hop
    refine ⟨⟨h1, h2, h3, h4, h5, h6, hk⟩, hig, fun hasc hlen => ?_⟩
    simp only at hasc hlen
    unfold appText at hasc hlen ⊢
    split at hasc
    · rename_i hw
      rw [if_pos hw] at hlen
      rw [if_pos hw]
      exact hr hasc hlen
    · rename_i hw
      rw [if_neg hw] at hlen
      rw [if_neg hw]
      exact (hr (Counted.pre hasc) (by simp at hlen; omega)).app rfl rfl rfl rfl rfl h7
  case refine_18 =>
    intro h1 h2 h3 h4 h5 hop
    have ho := hm.opc h3
    have hsome : s.inSomethingWithALabel = false := by
      cases hx : s.inSomethingWithALabel with
      | false => rfl
      | true => have := (ha.opn hs hx).1.2.2.1; rw [h3] at this; cases this
    cases hig : s.ignoreUntilNextLabel with
    | true => simp [hig, ho.2.2.2.2.1] at hop
    | false =>
      refine ⟨⟨h1, h2, rfl, ho.1, ho.2.1, ho.2.2.1, hk⟩, rfl, fun _ _ => ⟨?_, ?_, ?_, ?_⟩⟩
      · simp [ho.2.2.2.2.2]
      · simp [ho.2.2.2.1, beforeHash, angleSpans]
      · intro _ h'; simp [hsome] at h'
      · intros; rfl
  case refine_27 =>
    intro h1 h2 h3 h4 h5 h6 h7 h8 hop
    subst h8
    obtain ⟨-, hig, hr⟩ := h hop
    refine ⟨⟨h1, h2, h3, h4, h5, h6, hk⟩, hig, fun hasc hlen => ?_⟩
    have hr := hr (Counted.pre hasc) (by simp at hlen; omega)
    have hh : c! '#' ∉ s.text := fun h' => by rw [hr.com.2 h'] at h7; cases h7
    refine ⟨by simp, ?_, by simp, by simp⟩
    simp only [beforeHash_snoc, if_neg hh, if_true]
    rw [hr.labels, beforeHash_id hh]
  case refine_28 =>
    intro h1 h2 h3 h4 h5 h6 h7 h8 hop
    subst h8
    obtain ⟨-, hig, hr⟩ := h hop
    refine ⟨⟨h1, h2, h3, h4, h5, h6, hk⟩, hig, fun hasc hlen => ?_⟩
    have hr := hr (Counted.pre hasc) (by simp at hlen; omega)
    have hh : c! '#' ∉ s.text := fun h' => by rw [hr.com.2 h'] at h7; cases h7
    have hlen : s.text.length + 1 ≤ 65534 := by simpa using hlen
    refine ⟨?_, ?_, ?_, by simp⟩
    · simp [h7, hh]
    · simp only [beforeHash_snoc, if_neg hh]
      rw [if_neg (by decide), angleSpans_snoc, if_neg (by decide), List.append_nil, hr.labels, beforeHash_id hh]
    · intro _ _
      simp only [openSpan_snoc, if_true]
      refine ⟨_, rfl, ?_⟩
      have hle := charCount_le s.text
      rw [Counted.last hasc (by decide), Nat.mod_eq_of_lt (by omega), List.nil_append, charCount_append]
      rfl
  case refine_29 =>
    intro _ _ _ _ _ _ _ _ _ hn
    exact absurd ha.name hn
  case refine_30 =>
    intro h1 h2 h3 h4 h5 h6 h7 h8 h9 hop
    obtain ⟨-, hig, hr⟩ := h hop
    refine ⟨⟨h1, h2, h3, h4, h5, h6, hk⟩, hig, fun hasc hlen => ?_⟩
    have hr := hr (Counted.pre hasc) (by simp at hlen; omega)
    have hh : c! '#' ∉ s.text := fun h' => by rw [hr.com.2 h'] at h7; cases h7
    have hlen : s.text.length + 1 ≤ 65534 := by simpa using hlen
    obtain ⟨x, hb, hx⟩ := hr.opn h7 h8
    have e : s.text = x.1 ++ x.2 := openSpan_eq hb
    have hc1 := charCount_le x.1
    have hc2 := charCount_le s.text
    have hl : s.text.length = x.1.length + x.2.length := by rw [e, List.length_append]
    have hne : c ≠ c! '#' ∧ c ≠ c! '<' := by rcases h9 with rfl | rfl <;> decide
    refine ⟨?_, ?_, by simp, ?_⟩
    · simp [h7, hh]; exact fun e => hne.1 e.symm
    · simp only [beforeHash_snoc, if_neg hh, if_neg hne.1, angleSpans_snoc, if_pos h9, hb, Option.toList_some, List.filter_append,
        List.map_append]
      have hd : s.text.drop s.currentLabelReference.startCol = (spanRef x).name := by
        rw [hx, e, List.drop_append_of_le_length hc1]; rfl
      unfold refLabels
      rw [hig, hd, Counted.last hasc (by rcases h9 with rfl | rfl <;> decide), Nat.mod_eq_of_lt (by omega), hr.labels, beforeHash_id hh]
      rw [show decide (s.text.length < s.currentLabelReference.startCol) = false from decide_eq_false (by omega)]
      cases hsf : shouldIgnoreFunction (spanRef x).name f with
      | true => simp [hsf]
      | false =>
        have hy : spanRef x = ⟨(spanRef x).name, s.currentLabelReference.startCol, charCount s.text⟩ := by rw [hx, e]; rfl
        simp only [List.map_cons, List.map_nil, List.filter_cons, List.filter_nil, hsf, Bool.not_false, if_true, Bool.or_self,
          Bool.false_eq_true, if_false]
        rw [← hy]
    · intro _ _
      simp only [openSpan_snoc]
      rw [if_neg hne.2, if_pos h9]
  all_goals
    intros
    first
      | exact h
      | (intro hop; have := (h hop).1; unfold TextMode at this; simp_all; done)
      | (unfold addrFile; intro hop; have := (h hop).1; unfold TextMode at this; simp_all; done)
      | (unfold addrDone; intro hop; have := (h hop).1; unfold TextMode at this; simp_all; done)

theorem angleSpans_front (c : Byte) (pre s : Str) : angleSpans (c :: pre) s = (angleSpans pre s).map fun x => (c :: x.1, x.2) := by
  induction s generalizing pre with
  | nil => rfl
  | cons d s ih =>
    rw [angleSpans, angleSpans, List.map_append, List.cons_append, ih]
    congr 1
    split
    · cases upToMark s <;> rfl
    · rfl

theorem angleNames_spans (k : Nat) (pre s : Str) : angleNames (pre.length + k) s = (angleSpans pre s).map fun x => (x.2, x.1.length + k) := by
  induction s generalizing pre with
  | nil => rfl
  | cons d s ih =>
    have e : pre.length + k + 1 = (pre ++ [d]).length + k := by simp; omega
    rw [angleNames, angleSpans, List.map_append, e, ih]
    congr 1
    split
    · cases upToMark s <;> rfl
    · rfl

theorem upToMark_length {s x : Str} (h : upToMark s = some x) : x.length < s.length := by
  unfold upToMark at h
  split at h
  · rename_i d r e
    split at h
    · cases h
    · cases h
      conv => rhs; rw [← List.takeWhile_append_dropWhile (p := fun c => !angleMark c) (l := s), e]
      simp
  · cases h

theorem angleSpans_length {pre s : Str} {x : Str × Str} (h : x ∈ angleSpans pre s) : x.1.length + x.2.length < pre.length + s.length := by
  induction s generalizing pre with
  | nil => simp [angleSpans] at h
  | cons c s ih =>
    rw [angleSpans, List.mem_append] at h
    rcases h with h | h
    · split at h
      · simp only [Option.mem_toList, Option.map_eq_some_iff] at h
        obtain ⟨name, hn, rfl⟩ := h
        have := upToMark_length hn
        simp only [List.length_append, List.length_cons, List.length_nil]
        omega
      · simp at h
    · have := ih h
      simp only [List.length_append, List.length_cons, List.length_nil] at this ⊢
      omega

theorem upToMark_mem {s x : Str} (h : upToMark s = some x) :
    (∀ c ∈ x, angleMark c = false) ∧ ∃ post, s = x ++ post ∧ (post.head? = some c! '>' ∨ post.head? = some c! '+') := by
  unfold upToMark at h
  split at h
  · rename_i d r e
    split at h
    · cases h
    · rename_i hd
      cases h
      refine ⟨fun c hc => ?_, d :: r, ?_, ?_⟩
      · have := List.all_eq_true.1 (List.all_takeWhile (p := fun c => !angleMark c) (l := s)) c hc
        simpa using this
      · rw [← e, List.takeWhile_append_dropWhile]
      · have hm : angleMark d = true := by
          have := List.head?_dropWhile_not (fun c => !angleMark c) s
          rw [e] at this
          simpa using this
        simp only [angleMark, Bool.or_eq_true, beq_iff_eq] at hm
        simp only [List.head?_cons, Option.some.injEq]
        rcases hm with (h | h) | h
        · exact absurd h hd
        · exact .inl h
        · exact .inr h
  · cases h

theorem angleSpans_mem {pre s : Str} {x : Str × Str} (h : x ∈ angleSpans pre s) : ∃ post, x.1 ++ x.2 ++ post = pre ++ s ∧
    x.1.getLast? = some c! '<' ∧ (∀ c ∈ x.2, angleMark c = false) ∧ (post.head? = some c! '>' ∨ post.head? = some c! '+') := by
  induction s generalizing pre with
  | nil => simp [angleSpans] at h
  | cons c s ih =>
    rw [angleSpans, List.mem_append] at h
    rcases h with h | h
    · split at h
      · rename_i hc
        simp only [Option.mem_toList, Option.map_eq_some_iff] at h
        obtain ⟨name, hn, rfl⟩ := h
        obtain ⟨h1, post, rfl, h2⟩ := upToMark_mem hn
        exact ⟨post, by simp, by simp [hc], h1, h2⟩
      · simp at h
    · obtain ⟨post, e, h⟩ := ih h
      exact ⟨post, by rw [e]; simp, h⟩

theorem angleSpans_prefix {s : Str} {x : Str × Str} (h : x ∈ angleSpans [] s) : ∃ post, x.1 ++ x.2 ++ post = s := by
  obtain ⟨post, e, -⟩ := angleSpans_mem h
  exact ⟨post, e⟩

/-- The reference that a finished line has for a name in brackets. -/
def lineRef (x : Str × Str) : AsmLabel :=
  { name := x.1.drop (charCount x.1) ++ x.2, startCol := charCount x.1 + 1, endCol := charCount (x.1 ++ x.2) + 1 }

/-- The finished references of a line. -/
theorem RefInv.finish {f : Filter} {s : OState} (h : RefInv f s) (hl : s.text.length ≤ 65534) :
    (s.currentLine.labels.map fun r => { r with startCol := addCols r.startCol, endCol := addCols r.endCol }) =
      ((angleSpans [] (beforeHash (c! ' ' :: s.text))).map lineRef).filter fun r => !shouldIgnoreFunction r.name f := by
  have e : angleSpans [] (beforeHash (c! ' ' :: s.text)) = (angleSpans [] (beforeHash s.text)).map fun x => (c! ' ' :: x.1, x.2) := by
    rw [← angleSpans_front]
    rfl
  have hsp : ∀ t : Str, charCount (c! ' ' :: t) = charCount t + 1 := fun t => rfl
  rw [e, h.labels, List.map_map, List.filter_map, List.filter_map, List.map_map]
  have : ∀ x ∈ angleSpans [] (beforeHash s.text),
      (fun r : AsmLabel => { r with startCol := addCols r.startCol, endCol := addCols r.endCol }) (spanRef x) = lineRef (c! ' ' :: x.1, x.2) := by
    intro x hx
    have hx := angleSpans_length hx
    have hb : (beforeHash s.text).length ≤ s.text.length := (List.takeWhile_prefix _).length_le
    have h1 := charCount_le (x.1 ++ x.2)
    rw [charCount_append, List.length_append] at h1
    simp only [List.length_nil] at hx
    have := hsp x.1
    have h3 := hsp (x.1 ++ x.2)
    rw [charCount_append] at h3
    simp only [spanRef, lineRef, addCols, List.cons_append, this, charCount_append, h3, List.drop_succ_cons]
    rw [Nat.mod_eq_of_lt (by omega), Nat.mod_eq_of_lt (by omega)]
  refine List.map_congr_left fun x hx => ?_
  exact this x (List.mem_filter.1 hx).1

theorem spans_parse {L : Locale} (f : Filter) (s : Str) (hc : ∀ line ∈ inputLines s, AnglesClosed line) :
    ∀ l ∈ (objParse L f s).lines, l.opcodes ≠ [] → (∀ t, l.text = c! ' ' :: t → Counted L t) → l.text.length ≤ 65535 →
      l.labels = ((angleSpans [] (beforeHash l.text)).map lineRef).filter fun r => !shouldIgnoreFunction r.name f := by
  have shut : ∀ {t : Str} {s' : OState}, t ++ [10] <+: s → AngInv t s' → s'.stopParsing = false → s'.inSomethingWithALabel = false := by
    intro t s' hp h hs
    cases hx : s'.inSomethingWithALabel with
    | false => rfl
    | true =>
      obtain ⟨-, a, b, e, hu, -⟩ := h.opn hs hx
      exact (Unclosed.not (hc _ (mem_inputLines hp)) e hu).elim
  refine (lines_inv_in (L := L) (f := f) (I := fun u s => AngInv u s ∧ RefInv' L f s) s ?_ ?_ ?_ ?_ ?_ ?_ ?_ ?_).2
  · exact ⟨⟨rfl, by simp [start]⟩, by simp [RefInv', start]⟩
  · intro t st c _ hm h hs hk h10 _
    exact ⟨h.1.step hs hk h10, h.2.step hm h.1 hs hk⟩
  · intro t st c _ _ h hcase
    refine ⟨⟨h.1.name, fun hs ho => ?_⟩, h.2⟩
    obtain ⟨ht, a, b, e, hu, hh⟩ := h.1.opn hs ho
    rcases hcase with rfl | ⟨hk, -⟩ | hst
    · exact ⟨ht, a, b ++ [13], by rw [curLine_snoc t (by decide), e]; simp, hu.snoc (.inr (by decide)), fun h => List.mem_append_left _ (hh h)⟩
    · have := ht.2.2.2.2.2.2
      rw [hk] at this; cases this
    · rw [hst] at hs; cases hs
  · intro t st u i sp pl hp _ h hs
    have := shut hp h.1 hs
    refine ⟨⟨?_, fun _ ho => ?_⟩, ?_⟩
    · exact h.1.name
    · have ho : st.inSomethingWithALabel = true := ho
      rw [this] at ho; cases ho
    · intro hop; exact absurd rfl hop
  · intro t st hp _ h hs _ _
    have := shut hp h.1 hs
    rw [updateSourceRef_eq]
    refine ⟨⟨?_, fun _ ho => ?_⟩, ?_⟩
    · exact h.1.name
    · have ho : st.inSomethingWithALabel = true := ho
      rw [this] at ho; cases ho
    · intro hop; exact absurd rfl hop
  · intro h; exact absurd rfl h
  · intro t st _ hm h _ _ _ _ hop hasc hlen
    simp only [OState.finishLine, hm.notLabel, Bool.false_eq_true, ↓reduceIte] at hop hasc hlen ⊢
    obtain ⟨-, -, hr⟩ := h.2 hop
    have hlen : st.text.length ≤ 65534 := by simpa using hlen
    exact (hr (hasc _ rfl) hlen).finish hlen
  · intro t st _ hm h hl _ _ hop
    exact absurd (hm.lbl hl).2.2.2.2.2.2.2 hop

/-! ### ASCII -/

theorem charCount_ascii {s : Str} (h : asciiStr s) : charCount s = s.length := by
  unfold charCount
  rw [List.filter_eq_self.2]
  intro c hc
  have := h c hc
  rw [Bool.not_eq_true', Bool.and_eq_false_iff]
  exact .inl (decide_eq_false (by simpa using this.2))

theorem counted_ascii {L : Locale} (hL : L.Ascii) {s : Str} (h : asciiStr s) : Counted L s := by
  rintro a c b rfl -
  have h : asciiStr a := fun d hd => h d (List.mem_append_left _ hd)
  rw [ustrlen_ascii hL h, charCount_ascii h]

end AsmParser
