/-
Helper lemmas: which lines list label references.
-/
import Verif.Proofs.References
import Verif.Proofs.TextView

namespace AsmParser
open Re Regexes

theorem letter_iff (c : Byte) : isAlpha c = true ↔ Letter c := by
  have : ∀ c : Byte, isAlpha c = ((c! 'a' ≤ c && c ≤ c! 'z') || (c! 'A' ≤ c && c ≤ c! 'Z')) :=
    fun c => byte_forall (P := fun c => isAlpha c = ((c! 'a' ≤ c && c ≤ c! 'z') || (c! 'A' ≤ c && c ≤ c! 'Z'))) (by decide +kernel)
  rw [this]
  simp [Letter]

theorem letter_not_blank {c : Byte} (h : Letter c) : ¬ Blank c ∧ ¬ CommentChar c := by
  have h' := (letter_iff c).2 h
  have := letter_spacy (c := c) h'
  constructor
  · intro hb; rw [(blank_white c).2 hb] at this; exact absurd this.1 (by simp)
  · intro hb; rw [comment_iff.1 hb] at this; exact absurd this.2 (by simp)

/-- The part of the line the test for an instruction looks at begins like the line. -/
theorem cut_letter (bs : Str) (c : Byte) (r : Str) (hb : Blanks bs) (hc : Letter c) :
    ∃ r', getLineWithoutComment (bs ++ c :: r) = bs ++ c :: r' := by
  have key : ∀ (k : Nat) (s : Str) (it last : Nat) (sp st : Bool), k ≤ it → k ≤ last → k ≤ lwcLoop s it sp st last := by
    intro k s
    induction s with
    | nil => intro it last sp st h1 h2; exact h2
    | cons d s ih =>
      intro it last sp st h1 h2
      rw [lwcLoop_cons]
      repeat' split
      all_goals first | assumption | exact ih _ _ _ _ (by omega) (by omega)
  unfold getLineWithoutComment
  rw [lwcLoop_indent bs _ 0 _ fun x hx => (blank_white x).2 (hb x hx), lwcLoop_cons, if_neg, if_neg (by simp), if_neg]
  · have h1 := key (0 + bs.length + 1) r (0 + bs.length + 1) (bs ++ c :: r).length false false (Nat.le_refl _) (by simp)
    generalize lwcLoop r (0 + bs.length + 1) false false (bs ++ c :: r).length = k at h1
    obtain ⟨j, rfl⟩ : ∃ j, k = bs.length + (j + 1) := ⟨k - bs.length - 1, by omega⟩
    rw [List.take_length_add_append]
    exact ⟨_, rfl⟩
  · intro h; exact (letter_not_blank hc).1 ((blank_white c).1 h)
  · intro h; exact (letter_not_blank hc).2 (comment_iff.2 h)

theorem opcode_of_letter {t : Str} (h : BeginsWithLetter t) (h' : ¬ Assigned t) : hasOpcode t false = true := by
  obtain ⟨bs, c, r, hb, hc, rfl⟩ := h
  unfold hasOpcode
  have hpre := (C27_prefix (bs ++ c :: r)).1
  obtain ⟨r', e⟩ := cut_letter bs c r hb hc
  rw [e] at hpre ⊢
  simp only
  split
  · rfl
  · split
    · rename_i h
      exfalso
      apply h'
      obtain ⟨cs, hl⟩ := fullMatch_isSome.1 h
      obtain ⟨-, b1, b2, d, u, g1, g2, g3, -, g5, g6, -⟩ := lang_assignmentDef.1 hl
      obtain ⟨z, hz⟩ := hpre
      rw [g6] at hz
      by_cases hd : d = c! '$'
      · refine ⟨b1, d :: u, b2, z, blanks_iff.1 g1, ?_, blanks_iff.1 g2, by rw [← hz]; simp⟩
        intro x hx
        rcases List.mem_cons.1 hx with rfl | hx
        · rw [hd]; unfold SymbolChar; simp
        · exact symChar_iff.1 (g5 x hx)
      · refine ⟨b1, d :: u, b2, z, blanks_iff.1 g1, ?_, blanks_iff.1 g2, by rw [← hz]; simp⟩
        intro x hx
        rcases List.mem_cons.1 hx with rfl | hx
        · rcases symStartD_iff.1 g3 with (h | h | h) | h
          · exact .inl h
          · exact .inr (.inr (.inl h))
          · exact .inr (.inr (.inr (.inl h)))
          · exact absurd h hd
        · exact symChar_iff.1 (g5 x hx)
    · rw [if_neg (by simp), search_isSome]
      refine ⟨[], bs ++ [c], r', [], by simp, ?_⟩
      show Lang (.seq (.seq .bol hs) (.cls _)) _ _ _ _
      simp only [lang_seq, lang_bol, lang_hs, lang_cls]
      exact ⟨bs, [c], [], [], rfl, ⟨[], bs, [], [], rfl, ⟨rfl, rfl, rfl⟩, ⟨blanks_iff.2 hb, rfl⟩, rfl⟩, ⟨⟨c, rfl, (letter_iff c).2 hc⟩, rfl⟩, rfl⟩

theorem opcode_not {t : Str} (h : ¬ BeginsWithLetter t) (h' : ¬ Contains t b! ".inst") : hasOpcode t false = false := by
  unfold hasOpcode
  obtain ⟨z, hz⟩ := (C27_prefix t).1
  simp only
  rw [if_neg]
  · split
    · rfl
    · simp only [Bool.false_eq_true, if_false]
      cases hh : (hasOpcodeRe.search (getLineWithoutComment t)).isSome
      · rfl
      · exfalso
        apply h
        obtain ⟨u, w, rest, cs, e, hl⟩ := search_isSome.1 hh
        have hl : Lang (.seq (.seq .bol hs) (.cls isAlpha)) u.length w rest cs := hl
        simp only [lang_seq, lang_bol, lang_hs, lang_cls] at hl
        obtain ⟨_, _, _, _, rfl, ⟨_, bs, _, _, rfl, ⟨rfl, hu, rfl⟩, ⟨hb, rfl⟩, rfl⟩, ⟨⟨c, rfl, hc⟩, rfl⟩, rfl⟩ := hl
        have hu : u = [] := List.length_eq_zero_iff.1 hu
        subst hu
        exact ⟨bs, c, rest ++ z, blanks_iff.1 hb, (letter_iff c).1 hc, by rw [← hz, e]; simp⟩
  · intro hi
    apply h'
    obtain ⟨a, b, e⟩ := (isInstOpcode_iff (getLineWithoutComment t)).1 hi
    exact ⟨a, b ++ z, by rw [← hz, e]; simp⟩

/-- The references of a stored line. -/
theorem line_refs {L : Locale} {f : Filter} {s : Str} {l : TLine} (hl : l ∈ ((TParser.init f).readStream L s).lines) :
    (l.labels = [] ∨ l.isLabel = false ∧ l.labels = getUsedLabelsInLine L l.text) ∧
    (l.isLabel = true → l.labels = []) ∧
    (l.isLabel = false → StartsWithOneOf dataDirectives l.text → l.labels = getUsedLabelsInLine L l.text) ∧
    (NoCuda s → l.isLabel = false → BeginsWithLetter l.text → ¬ Assigned l.text → l.labels = getUsedLabelsInLine L l.text) ∧
    (NoCuda s → ¬ BeginsWithLetter l.text → ¬ StartsWithOneOf dataDirectives l.text → ¬ Contains l.text b! ".inst" → l.labels = []) := by
  rcases read_line L f s hl with h | h
  · have e : l.labels = [] := congrArg TLine.labels h
    have e2 : l.text = [] := congrArg TLine.text h
    refine ⟨.inl e, fun _ => e, ?_, ?_, fun _ _ _ _ => e⟩
    · rintro - ⟨bs, kw, r, -, hk, e'⟩
      rw [e2] at e'
      have : kw = [] := by simp_all
      subst this
      exact absurd hk (by decide)
    · rintro - - ⟨bs, c, r, -, -, e'⟩
      rw [e2] at e'
      simp at e'
  · obtain ⟨nv, h1, h2⟩ := h.refs
    have hd : StartsWithOneOf dataDirectives l.text → l.isData = true := by
      intro hd
      rcases h.data' ((isDataDefn_iff _).2 hd) with h' | h'
      · exact h'
      · exact absurd hd h'.not_data
    have hnv : NoCuda s → nv = false := by
      intro hn
      cases nv
      · rfl
      · exact absurd (h1 rfl) (noCuda hn)
    refine ⟨?_, ?_, ?_, ?_, ?_⟩
    · rw [h2]
      split
      · rename_i h
        simp only [Bool.and_eq_true, Bool.not_eq_true'] at h
        exact .inr ⟨h.1, rfl⟩
      · exact .inl rfl
    · intro hlab; rw [h2, hlab]; rfl
    · intro hlab hdata; rw [h2, hlab, hd hdata, Bool.or_true]; rfl
    · intro hn hlab hb ha
      rw [h2, hnv hn, opcode_of_letter hb ha, hlab]; rfl
    · intro hn hb hdata hi
      have hx : l.isData = false := by
        cases hx : l.isData
        · rfl
        · exact absurd ((isDataDefn_iff _).1 (h.data hx)) hdata
      rw [h2, hnv hn, opcode_not hb hi, hx]
      simp

end AsmParser
