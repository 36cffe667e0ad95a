/-
Helper lemmas: which lines text mode shows, and how.
-/
import Verif.Proofs.TextOut
import Verif.Proofs.Markers
import Verif.Props.TextUtils

namespace AsmParser

attribute [local irreducible] Re.search Re.fullMatch

/-! ### White space -/

theorem ink_append (a b : Str) : ink (a ++ b) = ink a ++ ink b := by unfold ink; exact List.filter_append ..
theorem nonBlanks_append (a b : Str) : nonBlanks (a ++ b) = nonBlanks a ++ nonBlanks b := by
  unfold nonBlanks; exact List.filter_append ..

theorem ink_nonBlanks (s : Str) : ink (nonBlanks s) = ink s := by
  unfold ink nonBlanks
  rw [List.filter_filter]
  congr 1
  funext c
  rw [Bool.eq_iff_iff]
  simp only [Blank, Bool.and_eq_true, decide_eq_true_eq, not_or]
  constructor
  · exact fun h => h.1
  · intro h
    refine ⟨h, h.1, ?_⟩
    rintro rfl
    exact absurd h.2 (by decide)

theorem ink_spaces {s : Str} (h : ∀ c ∈ s, Space c) : ink s = [] := by
  unfold ink
  rw [List.filter_eq_nil_iff]
  intro c hc
  have := h c hc
  simpa [Space, Classical.or_iff_not_imp_left] using this

theorem space_of_blank {c : Byte} (h : Blank c) : Space c := by
  rcases h with rfl | rfl
  · exact .inl rfl
  · exact .inr ⟨by decide, by decide⟩

theorem ink_blanks {s : Str} (h : Blanks s) : ink s = [] := ink_spaces fun c hc => space_of_blank (h c hc)

theorem nonBlanks_blanks {s : Str} : nonBlanks s = [] ↔ Blanks s := by
  unfold nonBlanks
  rw [List.filter_eq_nil_iff]
  simp only [decide_eq_true_eq, Classical.not_not]
  exact Iff.rfl

theorem blanks_white {s : Str} : isEmptyOrJustWhitespace s = true ↔ Blanks s := by
  unfold isEmptyOrJustWhitespace
  rw [List.all_eq_true]
  simp only [← blank_iff]
  exact Iff.rfl

theorem not_blanks_white {s : Str} : isEmptyOrJustWhitespace s = false ↔ ¬ Blanks s := by
  rw [← blanks_white]; simp

theorem Blanks.append {a b : Str} (h : Blanks a) (h' : Blanks b) : Blanks (a ++ b) := by
  intro c hc
  rcases List.mem_append.1 hc with hc | hc
  · exact h c hc
  · exact h' c hc

theorem padTabs_nonBlanks (k : Nat) (s : Str) : nonBlanks (padTabs k s) = nonBlanks s := by
  induction s generalizing k with
  | nil => rfl
  | cons c s ih =>
    unfold padTabs
    split
    · rename_i h
      rw [nonBlanks_append, ih, nonBlanks_blanks.2]
      · have : c = 9 := by simpa using h
        subst this
        show _ = List.filter _ _
        rw [List.filter_cons_of_neg (by decide)]; rfl
      · intro d hd
        exact .inl (List.eq_of_mem_replicate hd)
    · unfold nonBlanks at ih ⊢
      rw [List.filter_cons, List.filter_cons, ih]

theorem nonBlanks_cleaned (f : Filter) (t : Str) : nonBlanks (cleaned f t) = nonBlanks t := by
  unfold cleaned
  split
  · rw [C26_nonBlanks, expandTabs_eq, padTabs_nonBlanks]
  · rw [expandTabs_eq, padTabs_nonBlanks]

theorem ink_cleaned (f : Filter) (t : Str) : ink (cleaned f t) = ink t := by
  rw [← ink_nonBlanks, nonBlanks_cleaned, ink_nonBlanks]

/-- Removing leading white space. -/
theorem ltrim_split (s : Str) : ∃ sp, (∀ c ∈ sp, Space c) ∧ s = sp ++ ltrim s := by
  refine ⟨s.takeWhile isSpace, ?_, ?_⟩
  · intro c hc
    exact isSpace_iff.1 (mem_takeWhile hc)
  · exact (List.takeWhile_append_dropWhile).symm

theorem probablyLabel_colon {line : Str} (h : isProbablyLabel line = true) : c! ':' ∈ line := by
  unfold isProbablyLabel at h
  have h1 := (C27_prefix line).1
  generalize getLineWithoutComment line = w at h h1
  unfold endsWith at h
  have h2 : c! ':' ∈ w := by
    have h := List.isSuffixOf_iff_suffix.1 h
    exact h.subset (by simp)
  exact h1.subset h2

/-- The text stored for a line. -/
theorem lineText_shown (f : Filter) (n : Int) (raw : Str) : ∃ sp t', raw = sp ++ t' ∧ (∀ c ∈ sp, Space c) ∧
    (sp = [] ∨ 0 < n) ∧ lineText f n raw = cleaned f t' ∧ (¬ Blanks raw → ¬ Blanks t') := by
  have e : lineText f n raw = cleaned f (if n > 0 then fixLabelIndentation raw else raw) := rfl
  rw [e]
  by_cases hn : n > 0
  · rw [if_pos hn]
    unfold fixLabelIndentation
    split
    · rename_i hl
      obtain ⟨sp, h1, h2⟩ := ltrim_split raw
      refine ⟨sp, ltrim raw, h2, h1, .inr hn, rfl, fun _ hb => ?_⟩
      have hc := probablyLabel_colon hl
      rw [h2] at hc
      rcases List.mem_append.1 hc with hc | hc
      · rcases h1 _ hc with h | h
        · exact absurd h (by decide)
        · exact absurd h (by decide)
      · rcases hb _ hc with h | h <;> exact absurd h (by decide)
    · exact ⟨[], raw, rfl, by simp, .inl rfl, rfl, id⟩
  · rw [if_neg hn]
    exact ⟨[], raw, rfl, by simp, .inl rfl, rfl, id⟩

theorem cleaned_ne {f : Filter} {t : Str} (h : ¬ Blanks t) : cleaned f t ≠ [] := by
  intro e
  apply h
  rw [← nonBlanks_blanks, ← nonBlanks_cleaned f, e]
  rfl

theorem newLine_ne (p : TParser) (h : isEmptyOrJustWhitespace p.st.text = false) : p.newLine.text ≠ [] := by
  obtain ⟨sp, t', -, -, -, h4, h5⟩ := lineText_shown p.filter p.nested.st.inCustomAssembly p.st.text
  show lineText _ _ _ ≠ []
  rw [h4]
  exact cleaned_ne (h5 (not_blanks_white.1 h))

theorem shown_ink {f : Filter} {t raw : Str} {b : Bool} (h : Shown f t b raw) : ink t = ink raw := by
  obtain ⟨ws, sp, t', h1, h2, h3, -, rfl⟩ := h
  rw [ink_cleaned]
  have := congrArg ink h2
  rw [ink_append, ink_append, ink_blanks h1, ink_spaces h3] at this
  exact this.symm

/-! ### The lines that are read -/

/-- No filter that drops lines while reading. -/
def KeepsAll (f : Filter) : Prop := f.commentOnly = false ∧ f.directives = false ∧ f.libraryFunctions = false

def look (l : TLine) : Str × Bool := (l.text, l.isInlineAsm)

theorem amended_look {a b : List TLine} (h : Amended a b) : a.map look = b.map look := h.map look fun _ => rfl

/-- Correspondence of stored lines and input lines. -/
structure ReadLines (f : Filter) (done : List Str) (p : TParser) : Prop where
  carry : Blanks p.st.text
  pairs : ∃ ps : List ((Str × Bool) × Str), (p.lines.map look).filter (fun x => x.1 ≠ []) = ps.map (·.1) ∧
    (ps.map (·.2)).Sublist (done.filter fun l => nonBlanks l ≠ []) ∧ (∀ x ∈ ps, Shown f x.1.1 x.1.2 x.2) ∧
    (KeepsAll f → ps.map (·.2) = done.filter fun l => nonBlanks l ≠ [])

theorem carry_step {L : Locale} {p p' : TParser} (h : EolStep L p p') : Blanks p'.st.text := by
  cases hb : isEmptyOrJustWhitespace p.st.text with
  | false => rw [h.text hb]; intro c hc; exact absurd hc (by simp)
  | true =>
    rcases h.carry with e | e
    · rw [e]; intro c hc; exact absurd hc (by simp)
    · rw [e]; exact blanks_white.1 hb

theorem kept_shown {L : Locale} {p p' : TParser} {ln : TLine} (h : Kept L p p' ln) {ws raw : Str} (e : p.st.text = ws ++ raw)
    (hw : Blanks ws) : Shown p.filter ln.text ln.isInlineAsm raw := by
  obtain ⟨sp, t', h1, h2, h3, h4, -⟩ := lineText_shown p.filter p.nested.st.inCustomAssembly p.st.text
  refine ⟨ws, sp, t', hw, by rw [← e]; exact h1, h2, ?_, ?_⟩
  · rw [h.inline]
    exact h3.imp_right fun h => decide_eq_true h
  · rw [h.text]; exact h4

theorem readLines_step (L : Locale) (f : Filter) (done : List Str) (p : TParser) (l : Str) (hf : p.filter = f)
    (h : ReadLines f done p) (hs : EolStep L (p.addText l) ((p.addText l).eol L)) :
    ReadLines f (done ++ [l]) ((p.addText l).eol L) := by
  refine ⟨carry_step hs, ?_⟩
  obtain ⟨hc, ps, h1, h2, h3, h4⟩ := h
  have ht : (p.addText l).st.text = p.st.text ++ l := rfl
  have blankl : isEmptyOrJustWhitespace (p.addText l).st.text = true → nonBlanks l = [] := by
    intro hb
    rw [blanks_white, ht] at hb
    exact nonBlanks_blanks.2 fun c hc => hb c (List.mem_append_right _ hc)
  have hfil : (done ++ [l]).filter (fun l => nonBlanks l ≠ []) =
      done.filter (fun l => nonBlanks l ≠ []) ++ if nonBlanks l = [] then [] else [l] := by
    rw [List.filter_append]
    congr 1
    by_cases hl : nonBlanks l = [] <;> simp [hl]
  rw [hfil]
  rcases hs.lines with ⟨-, am, -, why⟩ | ⟨l', -, -, eq, -, raw⟩ | ⟨ls, am, ln, eq, kept⟩
  · refine ⟨ps, ?_, h2.trans (List.sublist_append_left _ _), h3, fun hk => ?_⟩
    · rw [← amended_look am]; exact h1
    · have : nonBlanks l = [] := by
        cases why with
        | blank h => exact blankl h
        | library h => rw [show (p.addText l).filter = f from hf, hk.2.2] at h; exact absurd h (by simp)
        | comment h => rw [show (p.addText l).filter = f from hf, hk.1] at h; exact absurd h (by simp)
        | proc h => rw [show (p.addText l).filter = f from hf, hk.2.1] at h; exact absurd h (by simp)
        | directive h => rw [show (p.addText l).filter = f from hf, hk.2.1] at h; exact absurd h (by simp)
      rw [if_pos this, List.append_nil]; exact h4 hk
  · refine ⟨ps, ?_, h2.trans (List.sublist_append_left _ _), h3, fun hk => ?_⟩
    · rw [eq, List.map_append, List.filter_append]
      show List.filter _ (List.map look p.lines) ++ _ = _
      rw [h1]
      simp [look]
    · rw [if_pos (blankl raw), List.append_nil]; exact h4 hk
  · have hne : nonBlanks l ≠ [] := by
      intro e
      have := not_blanks_white.1 kept.raw
      rw [ht] at this
      exact this (hc.append (nonBlanks_blanks.1 e))
    have htx : ln.text ≠ [] := by rw [kept.text]; exact newLine_ne _ kept.raw
    rw [if_neg hne]
    refine ⟨ps ++ [(look ln, l)], ?_, ?_, ?_, fun hk => ?_⟩
    · rw [eq, List.map_append, List.filter_append, ← amended_look am]
      show List.filter _ (List.map look p.lines) ++ _ = _
      rw [h1]
      simp [look, htx]
    · rw [List.map_append]
      exact h2.append (.refl _)
    · intro x hx
      rcases List.mem_append.1 hx with hx | hx
      · exact h3 x hx
      · have : x = (look ln, l) := by simpa using hx
        subst this
        have := kept_shown kept ht hc
        rwa [show (p.addText l).filter = f from hf] at this
    · rw [List.map_append, h4 hk]; rfl

theorem readLines (L : Locale) (f : Filter) (s : Str) : ReadLines f (inputLines s) ((TParser.init f).readStream L s) := by
  obtain ⟨e, he, h, -, -⟩ := readStream_lines L f (ReadLines f)
    ⟨fun c hc => absurd hc (by simp [TParser.init]), [], rfl, by simp, by simp, fun _ => rfl⟩
    (fun done p l _ hf _ h hs => readLines_step L f done p l hf h hs) s
  obtain ⟨h1, ps, h2, h3, h4, h5⟩ := h
  have : (inputLines s ++ e).filter (fun l => nonBlanks l ≠ []) = (inputLines s).filter fun l => nonBlanks l ≠ [] := by
    rw [List.filter_append]
    rcases he with rfl | ⟨rfl, -⟩ <;> simp [nonBlanks]
  rw [this] at h3 h5
  exact ⟨h1, ps, h2, h3, h4, h5⟩

end AsmParser
