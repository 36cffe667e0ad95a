/-
Helper lemmas: lines that are only a comment, before and after cleaning.
-/
import Verif.Proofs.TextView

namespace AsmParser

attribute [local irreducible] Re.search Re.fullMatch

theorem nonBlanks_split {x y : Str} {c : Byte} (h : nonBlanks x = c :: y) :
    ∃ bs r, Blanks bs ∧ x = bs ++ c :: r ∧ nonBlanks r = y := by
  induction x with
  | nil => exact absurd h (by simp [nonBlanks])
  | cons a x ih =>
    by_cases ha : Blank a
    · have e : nonBlanks (a :: x) = nonBlanks x := by unfold nonBlanks; rw [List.filter_cons_of_neg (by simp [ha])]
      rw [e] at h
      obtain ⟨bs, r, h1, h2, h3⟩ := ih h
      refine ⟨a :: bs, r, ?_, by rw [h2]; rfl, h3⟩
      intro d hd
      rcases List.mem_cons.1 hd with rfl | hd
      · exact ha
      · exact h1 d hd
    · have e : nonBlanks (a :: x) = a :: nonBlanks x := by unfold nonBlanks; rw [List.filter_cons_of_pos (by simp [ha])]
      rw [e, List.cons.injEq] at h
      exact ⟨[], x, fun d hd => absurd hd (by simp), by rw [h.1]; rfl, h.2⟩

theorem nonBlanks_prefix {bs r : Str} {c : Byte} (h : Blanks bs) (hc : ¬ Blank c) : nonBlanks (bs ++ c :: r) = c :: nonBlanks r := by
  rw [nonBlanks_append, nonBlanks_blanks.2 h]
  unfold nonBlanks
  rw [List.filter_cons_of_pos (by simp [hc])]; rfl

theorem split_unique {bs bs' r r' : Str} {c c' : Byte} (h : Blanks bs) (h' : Blanks bs') (hc : ¬ Blank c) (hc' : ¬ Blank c')
    (e : bs ++ c :: r = bs' ++ c' :: r') : bs = bs' ∧ c = c' ∧ r = r' := by
  induction bs generalizing bs' with
  | nil =>
    cases bs' with
    | nil => simpa using e
    | cons b bs' =>
      rw [List.nil_append, List.cons_append, List.cons.injEq] at e
      exact absurd (h' b (by simp)) (e.1 ▸ hc)
  | cons b bs ih =>
    cases bs' with
    | nil =>
      rw [List.nil_append, List.cons_append, List.cons.injEq] at e
      exact absurd (h b (by simp)) (e.1 ▸ hc')
    | cons b' bs' =>
      rw [List.cons_append, List.cons_append, List.cons.injEq] at e
      obtain ⟨h1, h2, h3⟩ := ih (fun d hd => h d (by simp [hd])) (fun d hd => h' d (by simp [hd])) e.2
      exact ⟨by rw [e.1, h1], h2, h3⟩

theorem blanks_padTabs {bs : Str} (h : Blanks bs) (k : Nat) : Blanks (padTabs k bs) := by
  rw [← nonBlanks_blanks, padTabs_nonBlanks, nonBlanks_blanks]; exact h

theorem padTabs_cons {c : Byte} (h : ¬ Blank c) (k : Nat) (s : Str) : padTabs k (c :: s) = c :: padTabs (k + 1) s := by
  rw [padTabs, if_neg]
  rintro rfl
  exact h (.inr rfl)

theorem padTabs_split {bs r : Str} {c : Byte} (h : Blanks bs) (hc : ¬ Blank c) :
    ∃ bs' k, Blanks bs' ∧ padTabs 0 (bs ++ c :: r) = bs' ++ c :: padTabs k r := by
  rw [padTabs_append, padTabs_cons hc]
  exact ⟨_, _, blanks_padTabs h 0, rfl⟩

/-- The character behind `c` after tabs have been expanded. -/
theorem padTabs_head {k : Nat} {r x : Str} {d : Byte} (hd : ¬ Blank d) (h : padTabs k r = d :: x) : ∃ r', r = d :: r' := by
  cases r with
  | nil => exact absurd h (by simp [padTabs])
  | cons a r =>
    unfold padTabs at h
    split at h
    · have : 8 - k % 8 = (8 - k % 8 - 1) + 1 := by omega
      rw [this, List.replicate_succ, List.cons_append, List.cons.injEq] at h
      exact absurd (.inl h.1.symm) hd
    · rw [List.cons.injEq] at h
      exact ⟨r, by rw [h.1]⟩

theorem squashLoop_append (st : HorSpaceState) (a b : Str) : ∃ st', squashLoop st (a ++ b) = squashLoop st a ++ squashLoop st' b := by
  induction a generalizing st with
  | nil => exact ⟨st, rfl⟩
  | cons c a ih =>
    obtain ⟨st', h⟩ := ih (squashStep st c).1
    refine ⟨st', ?_⟩
    show (squashStep st c).2 ++ squashLoop (squashStep st c).1 (a ++ b) =
      ((squashStep st c).2 ++ squashLoop (squashStep st c).1 a) ++ squashLoop st' b
    rw [h, List.append_assoc]

theorem squashLoop_cons {c : Byte} (h : ¬ Blank c) (st : HorSpaceState) (s : Str) : ∃ st', squashLoop st (c :: s) = c :: squashLoop st' s := by
  rw [blank_iff] at h
  refine ⟨(squashStep st c).1, ?_⟩
  rw [squashLoop]
  have : (squashStep st c).2 = [c] := by
    unfold squashStep
    cases st <;> simp [h]
  rw [this]; rfl

/-- Two adjacent characters at the beginning of a line without quotes stay adjacent. -/
theorem cleaned_adjacent (f : Filter) {bs ws : Str} {c d : Byte} (hb : Blanks bs) (hc : ¬ Blank c) (hd : ¬ Blank d)
    (hq : c! '"' ∉ bs ++ c :: d :: ws) : ∃ bs' ws', Blanks bs' ∧ cleaned f (bs ++ c :: d :: ws) = bs' ++ c :: d :: ws' ∧
      nonBlanks ws' = nonBlanks ws := by
  suffices h : ∃ bs' ws', Blanks bs' ∧ cleaned f (bs ++ c :: d :: ws) = bs' ++ c :: d :: ws' by
    obtain ⟨bs', ws', h1, h2⟩ := h
    refine ⟨bs', ws', h1, h2, ?_⟩
    have e := nonBlanks_cleaned f (bs ++ c :: d :: ws)
    rw [h2, nonBlanks_prefix h1 hc, nonBlanks_prefix hb hc, List.cons.injEq] at e
    have e2 := e.2
    rw [show d :: ws' = [] ++ d :: ws' from rfl, show d :: ws = [] ++ d :: ws from rfl,
      nonBlanks_prefix (by intro x hx; simp at hx) hd, nonBlanks_prefix (by intro x hx; simp at hx) hd, List.cons.injEq] at e2
    exact e2.2
  have e : expandTabs (bs ++ c :: d :: ws) = padTabs 0 bs ++ c :: d :: padTabs (0 + nonTabs bs + 1 + 1) ws := by
    rw [expandTabs_eq, padTabs_append, padTabs_cons hc, padTabs_cons hd]
  unfold cleaned
  rw [e]
  have hb' := blanks_padTabs hb 0
  generalize hg : padTabs 0 bs = b1 at *
  generalize hw : padTabs (0 + nonTabs bs + 1 + 1) ws = w1 at *
  split
  · have hq' : c! '"' ∉ b1 ++ c :: d :: w1 := by
      have hin : c! '"' ∈ nonBlanks (b1 ++ c :: d :: w1) → c! '"' ∈ nonBlanks (bs ++ c :: d :: ws) := by
        rw [← hg, ← hw, ← padTabs_cons hd, ← padTabs_cons hc, ← padTabs_append, padTabs_nonBlanks]
        exact id
      intro h
      have h1 : c! '"' ∈ nonBlanks (b1 ++ c :: d :: w1) := List.mem_filter.2 ⟨h, by decide⟩
      exact hq (List.mem_filter.1 (hin h1)).1
    have hn : NoLiteral (b1 ++ c :: d :: w1) := by
      rintro u q r e ⟨t, rfl, -⟩
      apply hq'
      rw [e]; simp
    rw [squashQuotes_none true hn]
    unfold squashHorizontalWhitespace
    have hall : (b1 ++ c :: d :: w1).all isWhitespace = false := by
      rw [blank_iff] at hc
      have : isWhitespace c = false := by simpa using hc
      simp [this]
    simp only [hall, Bool.and_false, Bool.false_eq_true, ↓reduceIte]
    obtain ⟨st1, h1⟩ := squashLoop_append .start b1 (c :: d :: w1)
    obtain ⟨st2, h2⟩ := squashLoop_cons hc st1 (d :: w1)
    obtain ⟨st3, h3⟩ := squashLoop_cons hd st2 w1
    rw [h1, h2, h3]
    refine ⟨_, _, ?_, rfl⟩
    rw [← nonBlanks_blanks, squashLoop_nonBlanks, nonBlanks_blanks]
    exact hb'
  · exact ⟨_, _, hb', rfl⟩

theorem spaces_of_nonBlanks {r ws : Str} (h : ∀ c ∈ ws, Space c) (e : nonBlanks r = nonBlanks ws) : ∀ c ∈ r, Space c := by
  intro c hc
  by_cases hb : Blank c
  · exact space_of_blank hb
  · have : c ∈ nonBlanks r := List.mem_filter.2 ⟨hc, by simp [hb]⟩
    rw [e] at this
    exact h c (List.mem_filter.1 this).1

/-- If cleaning makes a line a comment, then it was one, or it starts a block comment, or squashing has joined two characters. -/
theorem onlyComment_cleaned (f : Filter) (t : Str) (h : OnlyComment (cleaned f t)) : OnlyComment t ∨
    (∃ bs r, Blanks bs ∧ t = bs ++ b! "/*" ++ r) ∨ (f.whitespace = true ∧ ∃ bs r, Blanks bs ∧ cleaned f t = bs ++ c! '/' :: r) := by
  obtain ⟨bs, u, hb, e, hu⟩ := h
  have one : ∀ (c : Byte) (r : Str), ¬ Blank c → u = c :: r → ∃ bs' r', Blanks bs' ∧ t = bs' ++ c :: r' ∧ nonBlanks r' = nonBlanks r := by
    intro c r hc hr
    apply nonBlanks_split
    rw [← nonBlanks_cleaned f, e, hr, nonBlanks_prefix hb hc]
  have two : ∀ (d : Byte) (r : Str), ¬ Blank d → u = c! '/' :: d :: r → f.whitespace = false →
      ∃ bs' r', Blanks bs' ∧ t = bs' ++ c! '/' :: d :: r' := by
    intro d r hd hr hw
    obtain ⟨bs', r', h1, h2, -⟩ := one c! '/' (d :: r) (by decide) hr
    have e' := e
    unfold cleaned at e'
    rw [if_neg (by simp [hw]), expandTabs_eq, h2] at e'
    obtain ⟨b2, k, h3, h4⟩ := padTabs_split (r := r') h1 (show ¬ Blank c! '/' by decide)
    rw [h4, hr] at e'
    obtain ⟨-, -, h5⟩ := split_unique h3 hb (by decide) (by decide) e'
    obtain ⟨r2, h6⟩ := padTabs_head hd h5
    exact ⟨bs', r2, h1, by rw [h2, h6]⟩
  have slash : ∀ r, u = c! '/' :: r → f.whitespace = true →
      (f.whitespace = true ∧ ∃ bs r, Blanks bs ∧ cleaned f t = bs ++ c! '/' :: r) :=
    fun r hr hw => ⟨hw, bs, r, hb, by rw [e, hr]⟩
  rcases hu with ⟨r, hr⟩ | ⟨r, hr⟩ | ⟨r, hr⟩ | ⟨x, hx⟩ | ⟨r, hr, hn⟩
  · obtain ⟨bs', r', h1, h2, -⟩ := one c! '#' r (by decide) hr.symm
    exact .inl ⟨bs', _, h1, h2, .inl ⟨r', rfl⟩⟩
  · obtain ⟨bs', r', h1, h2, -⟩ := one c! '@' r (by decide) hr.symm
    exact .inl ⟨bs', _, h1, h2, .inr (.inl ⟨r', rfl⟩)⟩
  · cases hw : f.whitespace with
    | true => exact .inr (.inr ⟨rfl, (slash _ hr.symm hw).2⟩)
    | false =>
      obtain ⟨bs', r', h1, h2⟩ := two c! '/' r (by decide) hr.symm hw
      exact .inl ⟨bs', _, h1, h2, .inr (.inr (.inl ⟨r', rfl⟩))⟩
  · cases hw : f.whitespace with
    | true => exact .inr (.inr ⟨rfl, (slash (c! '*' :: (x ++ b! "*/")) (by rw [hx]; rfl) hw).2⟩)
    | false =>
      obtain ⟨bs', r', h1, h2⟩ := two c! '*' (x ++ b! "*/") (by decide) (by rw [hx]; rfl) hw
      exact .inr (.inl ⟨bs', r', h1, by rw [h2]; simp⟩)
  · obtain ⟨bs', r', h1, h2, h3⟩ := one c! ';' r (by decide) hr
    refine .inl ⟨bs', _, h1, h2, .inr (.inr (.inr (.inr ⟨r', rfl, ?_⟩)))⟩
    rintro ⟨ws, rfl, hws⟩
    apply hn
    have hq : c! '"' ∉ bs' ++ c! ';' :: c! ';' :: ws := by
      simp only [List.mem_append, List.mem_cons, not_or]
      refine ⟨fun h => ?_, by decide, by decide, fun h => ?_⟩
      · exact absurd (h1 _ h) (by decide)
      · exact absurd (hws _ h) (by unfold Space; decide)
    obtain ⟨b2, w2, g1, g2, g3⟩ := cleaned_adjacent f h1 (show ¬ Blank c! ';' by decide) (show ¬ Blank c! ';' by decide) hq
    rw [← h2, e, hr] at g2
    obtain ⟨-, -, g4⟩ := split_unique hb g1 (by decide) (by decide) g2
    exact ⟨w2, g4, spaces_of_nonBlanks hws g3⟩

theorem onlyComment_blanks {sp t : Str} (h : Blanks sp) (ht : OnlyComment t) : OnlyComment (sp ++ t) := by
  obtain ⟨bs, u, h1, rfl, h2⟩ := ht
  exact ⟨sp ++ bs, u, h.append h1, by simp, h2⟩

theorem inputLinesFrom_chars (cur s : Str) : ∀ l ∈ inputLinesFrom cur s, ∀ c ∈ l, c ∈ cur ∨ (c ∈ s ∧ c ≠ 10) := by
  induction s generalizing cur with
  | nil =>
    unfold inputLinesFrom
    split
    · simp
    · intro l hl c hc
      have : l = cur := by simpa using hl
      exact .inl (this ▸ hc)
  | cons a s ih =>
    unfold inputLinesFrom
    split
    · intro l hl c hc
      rcases List.mem_cons.1 hl with rfl | hl
      · exact .inl hc
      · rcases ih [] l hl c hc with h | h
        · simp at h
        · exact .inr ⟨List.mem_cons_of_mem _ h.1, h.2⟩
    · rename_i ha
      intro l hl c hc
      rcases ih _ l hl c hc with h | h
      · rcases List.mem_append.1 h with h | h
        · exact .inl h
        · have : c = a := by simpa using h
          subst this
          exact .inr ⟨by simp, ha⟩
      · exact .inr ⟨List.mem_cons_of_mem _ h.1, h.2⟩

theorem inputLines_chars {s l : Str} (hl : l ∈ inputLines s) {c : Byte} (hc : c ∈ l) : c ∈ s ∧ c ≠ 10 := by
  rcases inputLinesFrom_chars [] s l hl c hc with h | h
  · simp at h
  · exact h

theorem space_blank {c : Byte} (h : Space c) (h1 : c ≠ 10) (h2 : c ≠ 11) (h3 : c ≠ 12) (h4 : c ≠ 13) : Blank c := by
  have : ∀ c : UInt8, (c = 32 ∨ (9 ≤ c ∧ c ≤ 13)) → c ≠ 10 → c ≠ 11 → c ≠ 12 → c ≠ 13 → (c = 32 ∨ c = 9) := by
    intro c
    have : ∀ n : Fin 256, (UInt8.ofFin n = 32 ∨ (9 ≤ UInt8.ofFin n ∧ UInt8.ofFin n ≤ 13)) → UInt8.ofFin n ≠ 10 → UInt8.ofFin n ≠ 11 →
      UInt8.ofFin n ≠ 12 → UInt8.ofFin n ≠ 13 → (UInt8.ofFin n = 32 ∨ UInt8.ofFin n = 9) := by decide +kernel
    exact this c.toFin
  exact this c h h1 h2 h3 h4

/-- A stored line that is only a comment. -/
theorem comment_line {L : Locale} {f : Filter} {s : Str} {l : TLine} (hc : f.commentOnly = true) (hn : NoCuda s)
    (hl : l ∈ ((TParser.init f).readStream L s).lines) (hi : l.isInlineAsm = false ∨ (11 ∉ s ∧ 12 ∉ s ∧ 13 ∉ s))
    (h : OnlyComment l.text) : f.whitespace = true ∧ ∃ bs r, Blanks bs ∧ l.text = bs ++ c! '/' :: r := by
  rcases read_line L f s hl with h1 | h1
  · have e1 : l.text = [] := by have := congrArg TLine.text h1; exact this
    rw [e1] at h
    obtain ⟨bs, u, -, e, hu⟩ := h
    have : u = [] := by
      have := congrArg List.length e
      simp at this
      exact List.length_eq_zero_iff.1 (by omega)
    subst this
    simp at hu
  · obtain ⟨n, ws, raw, g1, g2, -, g3, g4, g5⟩ := h1.raw
    obtain ⟨g6, g7⟩ := g5 hc
    have g7 := g7.resolve_right (noCuda hn)
    obtain ⟨sp, t', k1, k2, k3, k4, -⟩ := lineText_shown f n (ws ++ raw)
    have hsp : Blanks sp := by
      rcases hi with hi | hi
      · rw [g4] at hi
        have : ¬ 0 < n := by simpa using hi
        rcases k3 with rfl | k3
        · intro c hc; simp at hc
        · exact absurd k3 this
      · intro c hc
        have hm : c ∈ ws ++ raw := by rw [k1]; exact List.mem_append_left _ hc
        rcases List.mem_append.1 hm with hm | hm
        · exact g1 c hm
        · obtain ⟨h2, h3⟩ := inputLines_chars g2 hm
          refine space_blank (k2 c hc) h3 ?_ ?_ ?_
          · rintro rfl; exact hi.1 h2
          · rintro rfl; exact hi.2.1 h2
          · rintro rfl; exact hi.2.2 h2
    rw [g3, k4] at h ⊢
    rcases onlyComment_cleaned f t' h with h2 | ⟨bs, r, h2, h3⟩ | h2
    · have := (C29_comment _).2 (onlyComment_blanks hsp h2)
      rw [← k1, g7] at this
      exact absurd this (by simp)
    · have := (startCommentBlock_iff (ws ++ raw)).2 ⟨sp ++ bs, r, hsp.append h2, by rw [k1, h3]; simp⟩
      rw [g6] at this
      exact absurd this (by simp)
    · exact h2

end AsmParser
