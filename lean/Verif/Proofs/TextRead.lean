/-
Helper lemmas: reading the input of text mode line by line.
-/
import Verif.Proofs.TextLines
import Verif.Spec.TextMode

namespace AsmParser

/-- Append to the text of the current line. -/
def TParser.addText (p : TParser) (l : Str) : TParser := { p with st := { p.st with text := p.st.text ++ l } }

theorem addText_nil (p : TParser) : p.addText [] = p := by
  unfold TParser.addText; rw [List.append_nil]

theorem addText_addText (p : TParser) (a b : Str) : (p.addText a).addText b = p.addText (a ++ b) := by
  unfold TParser.addText; simp

theorem feed_addText (L : Locale) (p : TParser) (c : Byte) (h : c ≠ 10) : p.feed L c = p.addText [c] := by
  unfold TParser.feed
  rw [if_neg (by simpa using h)]; rfl

theorem feed_lf (L : Locale) (p : TParser) : p.feed L 10 = p.eol L := rfl

theorem foldl_addText (L : Locale) (l : Str) (h : 10 ∉ l) (p : TParser) : l.foldl (TParser.feed L) p = p.addText l := by
  induction l generalizing p with
  | nil => exact (addText_nil p).symm
  | cons c l ih =>
    rw [List.mem_cons, not_or] at h
    rw [List.foldl_cons, feed_addText L p c (Ne.symm h.1), ih h.2, addText_addText]; rfl

/-- The end of `readStream`. -/
def TParser.flush (L : Locale) (q : TParser) : TParser := if !q.st.text.isEmpty then q.eol L else q

theorem readStream_eq (L : Locale) (p : TParser) (s : Str) :
    p.readStream L s = (s.foldl (TParser.feed L) { p with totalLines := 0 }).flush L := rfl

theorem flush_ne (L : Locale) (q : TParser) (h : q.st.text ≠ []) : q.flush L = q.eol L := by
  unfold TParser.flush
  rw [if_pos (by simpa using h)]

theorem flush_nil (L : Locale) (q : TParser) (h : q.st.text = []) : q.flush L = q := by
  unfold TParser.flush
  rw [if_neg (by simp [h])]

/-- Reading line by line. -/
theorem readFrom (L : Locale) (J : List Str → TParser → Prop) (step : ∀ done p l, 10 ∉ l → J done p → J (done ++ [l]) ((p.addText l).eol L))
    (s cur : Str) (hc : 10 ∉ cur) (done : List Str) (p : TParser) (h : J done p) :
    ∃ e, (e = [] ∨ e = [[]] ∧ ∃ q, q.st.text ≠ [] ∧ J (done ++ inputLinesFrom cur s) q) ∧
      J (done ++ inputLinesFrom cur s ++ e)
        ((s.foldl (TParser.feed L) (p.addText cur)).flush L) := by
  induction s generalizing cur done p with
  | nil =>
    rw [List.foldl_nil]
    unfold inputLinesFrom
    by_cases hcur : cur = []
    · subst hcur
      rw [addText_nil, if_pos rfl, List.append_nil]
      by_cases ht : p.st.text = []
      · rw [flush_nil L p ht]
        exact ⟨[], .inl rfl, by rwa [List.append_nil]⟩
      · rw [flush_ne L p ht]
        refine ⟨[[]], .inr ⟨rfl, p, ht, h⟩, ?_⟩
        have := step done p [] (by simp) h
        rwa [addText_nil] at this
    · rw [if_neg hcur, flush_ne L (p.addText cur) (by unfold TParser.addText; simp [hcur])]
      exact ⟨[], .inl rfl, by rw [List.append_nil]; exact step done p cur hc h⟩
  | cons c s ih =>
    rw [List.foldl_cons]
    unfold inputLinesFrom
    by_cases hc10 : c = 10
    · subst hc10
      rw [feed_lf, if_pos rfl]
      have := ih [] (by simp) (done ++ [cur]) _ (step done p cur hc h)
      rw [addText_nil] at this
      simpa using this
    · rw [feed_addText L _ c hc10, addText_addText, if_neg hc10]
      exact ih (cur ++ [c]) (by simp [hc, Ne.symm hc10]) done p h

theorem basic_addText {p : TParser} (h : Basic p) (l : Str) : Basic (p.addText l) := ⟨h.own, h.fname, h.lib⟩

/-- Induction over the input lines. -/
theorem readStream_lines (L : Locale) (f : Filter) (J : List Str → TParser → Prop) (init : J [] (TParser.init f))
    (step : ∀ done p l, 10 ∉ l → p.filter = f → Basic p → J done p → EolStep L (p.addText l) ((p.addText l).eol L) →
      J (done ++ [l]) ((p.addText l).eol L))
    (s : Str) : ∃ e, (e = [] ∨ e = [[]] ∧ ∃ q, q.st.text ≠ [] ∧ J (inputLines s) q) ∧ J (inputLines s ++ e) ((TParser.init f).readStream L s) ∧
      ((TParser.init f).readStream L s).filter = f ∧ Basic ((TParser.init f).readStream L s) := by
  have := readFrom L (fun done p => J done p ∧ p.filter = f ∧ Basic p)
    (by
      rintro done p l hl ⟨h1, h2, h3⟩
      have hs := eol_step L (p.addText l) (basic_addText h3 l)
      exact ⟨step done p l hl h2 h3 h1 hs, hs.filter.trans h2, hs.basic⟩)
    s [] (by simp) [] (TParser.init f) ⟨init, rfl, ⟨rfl, rfl, fun _ => ⟨rfl, rfl⟩⟩⟩
  rw [addText_nil] at this
  obtain ⟨e, h1, h2⟩ := this
  exact ⟨e, h1.imp_right fun ⟨h3, q, h4, h5⟩ => ⟨h3, q, h4, h5.1⟩, h2⟩

/-- Induction without reference to the input. -/
theorem readStream_inv (L : Locale) (f : Filter) (I : TParser → Prop) (init : I (TParser.init f))
    (text : ∀ p l, I p → I (p.addText l))
    (step : ∀ p, p.filter = f → Basic p → I p → EolStep L p (p.eol L) → I (p.eol L))
    (s : Str) : I ((TParser.init f).readStream L s) ∧
      ((TParser.init f).readStream L s).filter = f ∧ Basic ((TParser.init f).readStream L s) := by
  obtain ⟨e, -, h⟩ := readStream_lines L f (fun _ p => I p) init
    (fun done p l _ h1 h2 h3 h4 => step _ h1 (basic_addText h2 l) (text p l h3) h4) s
  exact h

end AsmParser
