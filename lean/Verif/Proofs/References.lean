/-
Helper lemmas: the names a line refers to.
-/
import Verif.Spec.References
import Verif.Proofs.UsedLabels
import Verif.Proofs.RegexFirst

namespace AsmParser
open Re Regexes

theorem startsWord_eq (c : Byte) : refStart c = startsWord c := by
  exact byte_forall (P := fun c => refStart c = startsWord c) (by decide +kernel)
theorem inWord_eq (c : Byte) : refChar c = inWord c := by
  exact byte_forall (P := fun c => refChar c = inWord c) (by decide +kernel)
theorem sigil_not_start {c : Byte} (h : isSigil c = true) : startsWord c = false := by
  revert h; exact byte_forall (P := fun c => isSigil c = true → startsWord c = false) (by decide +kernel)
theorem sigil_eq (c : Byte) : (c == c! '$' || c == c! '%') = isSigil c := by
  exact byte_forall (P := fun c => (c == c! '$' || c == c! '%') = isSigil c) (by decide +kernel)

/-! ### The words -/

theorem words_cons (sg cur : Str) (c : Byte) (s : Str) : nameWords sg cur (c :: s) =
    if cur ≠ [] ∧ inWord c then nameWords sg (cur ++ [c]) s
    else
      (if cur = [] then [] else [(sg, cur)]) ++
        if startsWord c then nameWords (if cur = [] then sg else []) [c] s
        else nameWords (if isSigil c then [c] else []) [] s := by rw [nameWords]

theorem words_nil (sg : Str) (c : Byte) (s : Str) : nameWords sg [] (c :: s) =
    if startsWord c then nameWords sg [c] s else nameWords (if isSigil c then [c] else []) [] s := by
  rw [words_cons]; simp

theorem words_cur (sg cur s : Str) (hc : cur ≠ []) :
    nameWords sg cur s = (sg, cur ++ s.takeWhile inWord) :: nameWords [] [] (s.dropWhile inWord) := by
  induction s generalizing cur with
  | nil => simp [nameWords, hc]
  | cons c s ih =>
    rw [words_cons]
    by_cases h : inWord c = true
    · rw [if_pos ⟨hc, h⟩, ih (cur ++ [c]) (by simp), List.takeWhile_cons_of_pos h, List.dropWhile_cons_of_pos h]
      simp
    · rw [if_neg (fun h' => h h'.2), if_neg hc, if_neg hc, List.takeWhile_cons_of_neg h, List.dropWhile_cons_of_neg h, words_nil]
      simp

theorem words_sigil (sg s : Str) (h : ∀ d ∈ s.head?, startsWord d = false) : nameWords sg [] s = nameWords [] [] s := by
  cases s with
  | nil => rfl
  | cons c s =>
    have hc : startsWord c = false := h c (by simp)
    rw [words_nil, words_nil, hc]; rfl

/-- A character that cannot be part of a word. -/
def junk (c : Byte) : Prop := startsWord c = false ∧ inWord c = false ∧ isSigil c = false

theorem words_junk (sg cur j : Str) (hj : ∀ c ∈ j, junk c) : nameWords sg cur j = if cur = [] then [] else [(sg, cur)] := by
  induction j generalizing sg cur with
  | nil => rfl
  | cons c j ih =>
    obtain ⟨h1, h2, h3⟩ := hj c (by simp)
    rw [words_cons, if_neg (by simp [h2]), h1]
    simp only [Bool.false_eq_true, if_false]
    rw [ih _ _ fun d hd => hj d (by simp [hd])]
    simp

theorem words_append_junk (sg cur s j : Str) (hj : ∀ c ∈ j, junk c) : nameWords sg cur (s ++ j) = nameWords sg cur s := by
  induction s generalizing sg cur with
  | nil => rw [List.nil_append, words_junk sg cur j hj]; rfl
  | cons c s ih =>
    rw [List.cons_append, words_cons, words_cons]
    simp only [ih]

theorem first_name (p : Nat) (c : Byte) (t : Str) (caps : Caps) (h : startsWord c = true) :
    First (grp 2 (cls (fun c => c == c! '.' || c == c! '@' || isUpper c || c == c! '_' || isLower c)
        ++ many (cls fun c => c == c! '.' || isDigit c || isUpper c || c == c! '_' || isLower c))) ⟨p, c :: t, caps⟩
      ⟨p + 1 + (t.takeWhile inWord).length, t.dropWhile inWord, (2, c :: t.takeWhile inWord) :: caps⟩ := by
  have hfun : (fun c => c == c! '.' || isDigit c || isUpper c || c == c! '_' || isLower c) = inWord := by
    funext c; exact inWord_eq c
  have e2 := First.grp (n := 2) (First.seq (First.cls (P := fun c => c == c! '.' || c == c! '@' || isUpper c || c == c! '_' || isLower c)
    (p := p) (s := t) (caps := caps) (show refStart c = true by rw [startsWord_eq]; exact h))
    (First.many_cls (P := inWord) (p := p + 1) (s := t) (caps := caps)))
  rw [hfun]
  refine Eq.trans e2 ?_
  congr 2
  simp only [List.cons.injEq, Prod.mk.injEq, true_and, and_true]
  have hl : (c :: t).length - (t.dropWhile inWord).length = (c :: t.takeWhile inWord).length := by
    have := congrArg List.length (List.takeWhile_append_dropWhile (p := inWord) (l := t))
    simp only [List.length_append, List.length_cons] at this ⊢
    omega
  rw [hl]
  have : c :: t = (c :: t.takeWhile inWord) ++ t.dropWhile inWord := by
    rw [List.cons_append, List.takeWhile_append_dropWhile]
  conv => lhs; rw [this]
  rw [List.take_left' rfl]

theorem run_plain (p : Nat) (c : Byte) (t : Str) (h : startsWord c = true) :
    First usedLabel ⟨p, c :: t, []⟩
      ⟨p + 1 + (t.takeWhile inWord).length, t.dropWhile inWord, [(2, c :: t.takeWhile inWord), (1, [])]⟩ := by
  have hs : isSigil c = false := by
    cases hs : isSigil c
    · rfl
    · rw [sigil_not_start hs] at h; cases h
  have e1 : First (grp 1 (opt (cls fun c => c == c! '$' || c == c! '%'))) ⟨p, c :: t, []⟩ ⟨p, c :: t, [(1, [])]⟩ := by
    have := First.grp (n := 1) (First.opt_none (a := cls fun c => c == c! '$' || c == c! '%') (st := ⟨p, c :: t, []⟩) (by
      show (if (c == c! '$' || c == c! '%') = true then _ else _) = _
      rw [sigil_eq, hs]; rfl))
    simpa using this
  exact First.seq e1 (first_name p c t _ h)

theorem run_sigil (p : Nat) (c d : Byte) (t : Str) (hc : isSigil c = true) (h : startsWord d = true) :
    First usedLabel ⟨p, c :: d :: t, []⟩
      ⟨p + 1 + 1 + (t.takeWhile inWord).length, t.dropWhile inWord, [(2, d :: t.takeWhile inWord), (1, [c])]⟩ := by
  have e1 : First (grp 1 (opt (cls fun c => c == c! '$' || c == c! '%'))) ⟨p, c :: d :: t, []⟩ ⟨p + 1, d :: t, [(1, [c])]⟩ := by
    have := First.grp (n := 1) (First.opt_some (First.cls (P := fun c => c == c! '$' || c == c! '%') (p := p) (s := d :: t) (caps := [])
      (c := c) (by rw [sigil_eq]; exact hc)))
    simpa using this
  exact First.seq e1 (first_name (p + 1) d t _ h)

theorem run_none (p : Nat) (c : Byte) (t : Str) (h : startsWord c = false) (h' : isSigil c = true → ∀ d ∈ t.head?, startsWord d = false) :
    usedLabel.run ⟨p, c :: t, []⟩ = [] := by
  apply run_nil_of_lang
  rintro w rest cs e hl
  obtain ⟨x, y, rfl, -, hx, d, u, rfl, hd, -⟩ := lang_usedLabel.1 hl
  rw [startsWord_eq] at hd
  rcases hx with rfl | hx
  · simp only [List.nil_append, List.cons_append, List.cons.injEq] at e
    rw [← e.1, h] at hd; cases hd
  · have hx' : ∃ k, x = [k] ∧ isSigil k = true := by
      rcases hx with rfl | rfl
      · exact ⟨_, rfl, rfl⟩
      · exact ⟨_, rfl, rfl⟩
    obtain ⟨k, rfl, hk⟩ := hx'
    simp only [List.cons_append, List.nil_append, List.cons.injEq] at e
    obtain ⟨rfl, rfl⟩ := e
    rw [h' hk d (by simp)] at hd; cases hd

/-- The next match, and what is behind it. -/
theorem search_words (p : Nat) (t : Str) :
    (usedLabel.searchFrom p t = none ∧ nameWords [] [] t = []) ∨
    ∃ m u z, usedLabel.searchFrom p t = some m ∧ t = u ++ z ∧ u ≠ [] ∧ m.stop = p + u.length ∧
      nameWords [] [] t = (m.get 1, m.get 2) :: nameWords [] [] z := by
  induction t generalizing p with
  | nil =>
    left
    refine ⟨?_, rfl⟩
    have : usedLabel.run ⟨p, [], []⟩ = [] := by
      apply run_nil_of_lang
      rintro w rest cs e hl
      obtain ⟨x, y, rfl, -, -, d, u, rfl, -⟩ := lang_usedLabel.1 hl
      simp at e
    unfold Re.searchFrom
    rw [this]
  | cons c t ih =>
    have hit : ∀ {st : MSt}, First usedLabel ⟨p, c :: t, []⟩ st → usedLabel.searchFrom p (c :: t) = some ⟨p, st.pos, st.caps⟩ := by
      intro st h
      unfold First at h
      unfold Re.searchFrom
      cases hr : usedLabel.run ⟨p, c :: t, []⟩ with
      | nil => rw [hr] at h; simp at h
      | cons a l => rw [hr] at h; simp at h; subst h; rfl
    have miss : startsWord c = false → (isSigil c = true → ∀ d ∈ t.head?, startsWord d = false) →
        usedLabel.searchFrom p (c :: t) = usedLabel.searchFrom (p + 1) t := by
      intro h1 h2
      conv => lhs; unfold Re.searchFrom
      rw [run_none p c t h1 h2]
    have htd : ∀ s : Str, s = s.takeWhile inWord ++ s.dropWhile inWord := fun s => List.takeWhile_append_dropWhile.symm
    have later : startsWord c = false → (isSigil c = true → ∀ d ∈ t.head?, startsWord d = false) →
        (usedLabel.searchFrom p (c :: t) = none ∧ nameWords [] [] (c :: t) = []) ∨
        ∃ m u z, usedLabel.searchFrom p (c :: t) = some m ∧ c :: t = u ++ z ∧ u ≠ [] ∧ m.stop = p + u.length ∧
          nameWords [] [] (c :: t) = (m.get 1, m.get 2) :: nameWords [] [] z := by
      intro h1 h2
      have hw : nameWords [] [] (c :: t) = nameWords [] [] t := by
        rw [words_nil, h1]
        simp only [Bool.false_eq_true, if_false]
        split
        · rename_i h; exact words_sigil _ _ (h2 h)
        · rfl
      rw [miss h1 h2, hw]
      rcases ih (p + 1) with h | ⟨m, u, z, g1, g2, g3, g4, g5⟩
      · exact .inl h
      · exact .inr ⟨m, c :: u, z, g1, by rw [g2]; rfl, by simp, by rw [g4]; simp; omega, g5⟩
    cases hs : startsWord c with
    | true =>
      right
      refine ⟨_, c :: t.takeWhile inWord, t.dropWhile inWord, hit (run_plain p c t hs), ?_, by simp, ?_, ?_⟩
      · rw [List.cons_append, ← htd]
      · simp; omega
      · rw [words_nil, hs]
        simp only [if_true]
        rw [words_cur _ _ _ (by simp)]
        rfl
    | false =>
      cases hg : isSigil c with
      | false => exact later hs (by simp [hg])
      | true =>
        cases t with
        | nil => exact later hs (by simp)
        | cons d t =>
          cases hd : startsWord d with
          | false => exact later hs (by simp [hd])
          | true =>
            right
            refine ⟨_, c :: d :: t.takeWhile inWord, t.dropWhile inWord, hit (run_sigil p c d t hg hd), ?_, by simp, ?_, ?_⟩
            · rw [List.cons_append, List.cons_append, ← htd]
            · simp; omega
            · rw [words_nil, hs]
              simp only [Bool.false_eq_true, if_false, hg, if_true]
              rw [words_nil, hd]
              simp only [if_true]
              rw [words_cur _ _ _ (by simp)]
              rfl

theorem range_words (s : Str) (fuel pos : Nat) (hf : s.length - pos < fuel) :
    (usedLabel.rangeAux s fuel pos).map (fun m => (m.get 1, m.get 2)) = nameWords [] [] (s.drop pos) := by
  induction fuel generalizing pos with
  | zero => omega
  | succ fuel ih =>
    unfold Re.rangeAux
    rcases search_words pos (s.drop pos) with ⟨h1, h2⟩ | ⟨m, u, z, h1, h2, h3, h4, h5⟩
    · rw [h1, h2]; rfl
    · rw [h1, h5]
      have hu : 0 < u.length := List.length_pos_iff.2 h3
      have hl := congrArg List.length h2
      simp only [List.length_drop, List.length_append] at hl
      have hz : s.drop m.stop = z := by
        rw [h4, ← List.drop_drop, h2, List.drop_left' rfl]
      simp only [List.map_cons]
      rw [ih m.stop (by omega), hz]

theorem usedLoop_names (L : Locale) (s : Str) (k : Nat) (ms : List Match) (i : Nat) :
    (usedLabelsLoop L s k ms i).map (·.name) =
      (ms.map fun m => (m.get 1, m.get 2)).flatMap fun w => if w.1 = [] then [w.2] else [w.2, w.1 ++ w.2] := by
  induction ms generalizing i with
  | nil => rfl
  | cons m ms ih =>
    unfold usedLabelsLoop
    simp only [List.map_append, ih, List.map_cons, List.flatMap_cons]
    congr 1
    cases h : m.get 1 with
    | nil => simp
    | cons a b => simp

/-! ### The operands -/

theorem commentChar_iff (c : Byte) : isCommentChar c = true ↔ c = c! ';' ∨ c = c! '#' := by
  unfold isCommentChar; simp

theorem blank_white (c : Byte) : isWhitespace c = true ↔ Blank c := by
  unfold isWhitespace Blank; simp

theorem next_iff (s : Str) : nextNonBlank s = false ↔ ∀ d ∈ s.head?, Blank d := by
  cases s with
  | nil => simp [nextNonBlank]
  | cons d s => simp [nextNonBlank, ← blank_white]

theorem code_stop {c : Byte} {s : Str} (h : isCommentChar c = true) (h' : nextNonBlank s = false) : codePart (c :: s) = [] := by
  rw [codePart, if_pos ⟨(commentChar_iff c).1 h, (next_iff s).1 h'⟩]

theorem code_go {c : Byte} {s : Str} (h : ¬ (isCommentChar c = true ∧ nextNonBlank s = false)) : codePart (c :: s) = c :: codePart s := by
  rw [codePart, if_neg fun h' => h ⟨(commentChar_iff c).2 h'.1, (next_iff s).2 h'.2⟩]

/-- Blanks and comment characters. -/
def spacy (c : Byte) : Prop := isWhitespace c = true ∨ isCommentChar c = true

theorem spacy_junk {c : Byte} (h : spacy c) : junk c := by
  revert h
  have : ∀ c : Byte, (isWhitespace c || isCommentChar c) = true → startsWord c = false ∧ inWord c = false ∧ isSigil c = false :=
    fun c => byte_forall (P := fun c => (isWhitespace c || isCommentChar c) = true → startsWord c = false ∧ inWord c = false ∧ isSigil c = false)
      (by decide +kernel)
  intro h
  exact this c (by simpa [spacy] using h)

/-- Where the line is cut off: at its comment, or before blanks at the end of the code. -/
theorem sw_end (n : Nat) (s dn : Str) (ws we sp : Bool) (after lastit : Nat) (hn : dn.length + s.length = n)
    (h1 : sp = true → (ws = true ∧ we = true) ∧ ∃ d j, dn = d ++ j ∧ d.length = lastit ∧ ∀ c ∈ j, spacy c)
    (h2 : sp = false → lastit = n) (hw : we = true → ws = true) :
    ∃ d j, dn ++ codePart s = d ++ j ∧ (∀ c ∈ j, spacy c) ∧ (swLoop n s dn.length ws we sp after lastit).2 = d.length := by
  induction s generalizing dn ws we sp after lastit with
  | nil =>
    simp only [codePart, swLoop, List.append_nil]
    cases sp with
    | true =>
      obtain ⟨-, d, j, g1, g2, g3⟩ := h1 rfl
      exact ⟨d, j, g1, g3, g2.symm⟩
    | false =>
      refine ⟨dn, [], by simp, by simp, ?_⟩
      rw [h2 rfl]; simp at hn; exact hn.symm
  | cons c s ih =>
    have ih := ih (dn ++ [c])
    have el : (dn ++ [c]).length = dn.length + 1 := by simp
    rw [el] at ih
    have hn' : dn.length + 1 + s.length = n := by simp at hn; omega
    rw [swLoop_cons]
    by_cases hstop : isCommentChar c = true ∧ nextNonBlank s = false
    · rw [code_stop hstop.1 hstop.2, List.append_nil, if_pos hstop.1, if_neg (by simp [hstop.2])]
      cases sp with
      | true =>
        obtain ⟨-, d, j, g1, g2, g3⟩ := h1 rfl
        exact ⟨d, j, g1, g3, g2.symm⟩
      | false => exact ⟨dn, [], by simp, by simp, rfl⟩
    · rw [code_go hstop, show dn ++ c :: codePart s = (dn ++ [c]) ++ codePart s by simp]
      have keep : spacy c → sp = true → ∃ d j, dn ++ [c] = d ++ j ∧ d.length = lastit ∧ ∀ x ∈ j, spacy x := by
        intro hc hsp
        obtain ⟨-, d, j, g1, g2, g3⟩ := h1 hsp
        refine ⟨d, j ++ [c], by rw [g1]; simp, g2, fun x hx => ?_⟩
        rcases List.mem_append.1 hx with hx | hx
        · exact g3 x hx
        · rw [List.mem_singleton.1 hx]; exact hc
      split
      · rename_i hcc
        have hnb : nextNonBlank s = true := by
          cases h : nextNonBlank s
          · exact absurd ⟨hcc, h⟩ hstop
          · rfl
        rw [if_pos hnb]
        exact ih _ _ _ _ _ hn' (fun h => ⟨(h1 h).1, keep (.inr hcc) h⟩) h2 hw
      · split
        · rename_i h
          have hsp : sp = false := by
            cases sp
            · rfl
            · simp [(h1 rfl).1.1] at h
          exact ih _ _ _ _ _ hn' (by simp [hsp]) h2 (fun _ => rfl)
        · split
          · rename_i h
            have hsp : sp = false := by
              cases sp
              · rfl
              · simp [(h1 rfl).1.2] at h
            exact ih _ _ _ _ _ hn' (by simp [hsp]) h2 (fun _ => by simp at h; exact h.1.1)
          · split
            · rename_i hwe
              split
              · rename_i hsp
                split
                · exact ih _ _ _ _ _ hn' (by simp) (fun _ => rfl) hw
                · rename_i h
                  have hc : spacy c := .inl (by simpa using h)
                  exact ih _ _ _ _ _ hn' (fun h => ⟨(h1 h).1, keep hc h⟩) h2 hw
              · split
                · rename_i h
                  refine ih _ _ _ _ _ hn' (fun _ => ⟨⟨hw hwe, hwe⟩, dn, [c], rfl, rfl, ?_⟩) (by simp) hw
                  intro x hx
                  rw [List.mem_singleton.1 hx]; exact .inl h
                · exact ih _ _ _ _ _ hn' (fun h => by simp_all) h2 hw
            · rename_i hwe
              exact ih _ _ _ _ _ hn' (fun h => absurd (h1 h).1.2 hwe) h2 hw

/-- Once the first word has ended the start does not change. -/
theorem sw_start_done (n : Nat) (s : Str) (it : Nat) (sp : Bool) (after lastit : Nat) :
    (swLoop n s it true true sp after lastit).1 = after := by
  induction s generalizing it sp lastit with
  | nil => rfl
  | cons c s ih =>
    rw [swLoop_cons]
    repeat' split
    all_goals first | exact ih _ _ _ | rfl | simp_all

def letter (c : Byte) : Bool := (97 ≤ c && c ≤ 122) || (65 ≤ c && c ≤ 90)

theorem letter_eq (c : Byte) : isAlpha c = letter c := rfl

theorem letter_spacy {c : Byte} (h : letter c = true) : isWhitespace c = false ∧ isCommentChar c = false := by
  revert h
  exact byte_forall (P := fun c => letter c = true → isWhitespace c = false ∧ isCommentChar c = false) (by decide +kernel)

theorem white_not_comment {c : Byte} (h : isWhitespace c = true) : isCommentChar c = false := by
  revert h
  exact byte_forall (P := fun c => isWhitespace c = true → isCommentChar c = false) (by decide +kernel)

/-- Inside the first word. -/
theorem sw_start_word (n : Nat) (s : Str) (it lastit : Nat) :
    (swLoop n s it true false false 0 lastit).1 =
      let v := (codePart s).dropWhile fun c => !isWhitespace c
      if v = [] then 0 else it + ((codePart s).length - v.length) := by
  induction s generalizing it with
  | nil => rfl
  | cons c s ih =>
    rw [swLoop_cons]
    by_cases hstop : isCommentChar c = true ∧ nextNonBlank s = false
    · rw [code_stop hstop.1 hstop.2, if_pos hstop.1, if_neg (by simp [hstop.2])]; rfl
    · rw [code_go hstop]
      have step : isWhitespace c = false → (swLoop n s (it + 1) true false false 0 lastit).1 =
          let v := (c :: codePart s).dropWhile fun c => !isWhitespace c
          if v = [] then 0 else it + ((c :: codePart s).length - v.length) := by
        intro hc
        rw [ih, List.dropWhile_cons_of_pos (by simp [hc])]
        simp only
        split
        · rfl
        · have : ((codePart s).dropWhile fun c => !isWhitespace c).length ≤ (codePart s).length :=
            (List.dropWhile_suffix _).length_le
          simp only [List.length_cons]
          omega
      split
      · rename_i hcc
        have hnb : nextNonBlank s = true := by
          cases h : nextNonBlank s
          · exact absurd ⟨hcc, h⟩ hstop
          · rfl
        rw [if_pos hnb]
        refine step ?_
        cases h : isWhitespace c
        · rfl
        · rw [white_not_comment h] at hcc; cases hcc
      · rw [if_neg (by simp)]
        cases hc : isWhitespace c with
        | false => simpa [hc] using step hc
        | true =>
          simp only [Bool.not_false, Bool.and_self, if_true]
          rw [sw_start_done, List.dropWhile_cons_of_neg (by simp [hc])]
          simp

/-- Before the first word. -/
theorem sw_start (n : Nat) (s : Str) (it lastit : Nat) :
    (swLoop n s it false false false 0 lastit).1 =
      let v := ((codePart s).dropWhile fun c => !letter c).dropWhile fun c => !isWhitespace c
      if v = [] then 0 else it + ((codePart s).length - v.length) := by
  induction s generalizing it with
  | nil => rfl
  | cons c s ih =>
    rw [swLoop_cons]
    by_cases hstop : isCommentChar c = true ∧ nextNonBlank s = false
    · rw [code_stop hstop.1 hstop.2, if_pos hstop.1, if_neg (by simp [hstop.2])]; rfl
    · rw [code_go hstop]
      have lev : (((codePart s).dropWhile fun c => !letter c).dropWhile fun c => !isWhitespace c).length ≤ (codePart s).length :=
        ((List.dropWhile_suffix _).trans (List.dropWhile_suffix _)).length_le
      have step : letter c = false → (swLoop n s (it + 1) false false false 0 lastit).1 =
          let v := ((c :: codePart s).dropWhile fun c => !letter c).dropWhile fun c => !isWhitespace c
          if v = [] then 0 else it + ((c :: codePart s).length - v.length) := by
        intro hc
        rw [ih, List.dropWhile_cons_of_pos (p := fun c => !letter c) (by simp [hc])]
        simp only
        split
        · rfl
        · simp only [List.length_cons]
          omega
      split
      · rename_i hcc
        have hnb : nextNonBlank s = true := by
          cases h : nextNonBlank s
          · exact absurd ⟨hcc, h⟩ hstop
          · rfl
        rw [if_pos hnb]
        refine step ?_
        cases h : letter c
        · rfl
        · rw [(letter_spacy h).2] at hcc; cases hcc
      · cases hc : letter c with
        | false =>
          rw [letter_eq, hc]
          simpa using step hc
        | true =>
          rw [letter_eq, hc]
          simp only [Bool.not_false, Bool.and_self, if_true]
          rw [sw_start_word, List.dropWhile_cons_of_neg (p := fun c => !letter c) (by simp [hc]),
            List.dropWhile_cons_of_pos (p := fun c => !isWhitespace c) (by simp [(letter_spacy hc).1])]
          have : ((codePart s).dropWhile fun c => !isWhitespace c).length ≤ (codePart s).length :=
            (List.dropWhile_suffix _).length_le
          simp only
          split
          · rfl
          · simp only [List.length_cons]; omega

theorem suffix_drop {v s : Str} (h : v <:+ s) : s.drop (s.length - v.length) = v := by
  obtain ⟨u, rfl⟩ := h
  rw [List.length_append, Nat.add_sub_cancel, List.drop_left' rfl]

theorem operand_eq (line : Str) : ∃ j, operandPart (codePart line) = getLineWithoutCommentAndStripFirstWord line ++ j ∧
    ∀ c ∈ j, spacy c := by
  have e1 := sw_start line.length line 0 line.length
  obtain ⟨d, j, e2, hj, e3⟩ := sw_end line.length line [] false false false 0 line.length (by simp) (by simp) (fun _ => rfl) (by simp)
  have hb := swLoop_bounds line.length line 0 false false false 0 line.length (by simp) (Nat.le_refl _) (Nat.le_refl _)
    (by simp) (fun _ => rfl) (fun _ => rfl)
  unfold getLineWithoutCommentAndStripFirstWord
  simp only [List.length_nil] at e3
  generalize swLoop line.length line 0 false false false 0 line.length = r at e1 e3 hb
  rw [List.nil_append] at e2
  have hpre : ∀ s : Str, codePart s <+: s := by
    intro s
    induction s with
    | nil => exact List.prefix_refl _
    | cons c s ih =>
      rw [codePart]
      split
      · exact List.nil_prefix
      · exact List.cons_prefix_cons.2 ⟨rfl, ih⟩
  have htake : line.take r.2 = d := by
    obtain ⟨z, hz⟩ := hpre line
    rw [e3]
    conv => lhs; rw [← hz, e2, List.append_assoc]
    exact List.take_left' rfl
  simp only []
  rw [htake]
  have hop : operandPart (codePart line) =
      let v := ((codePart line).dropWhile fun c => !letter c).dropWhile fun c => !isWhitespace c
      if v = [] then codePart line else v := by
    unfold operandPart
    have f1 : (fun c : Byte => decide ¬ ((97 ≤ c ∧ c ≤ 122) ∨ (65 ≤ c ∧ c ≤ 90))) = fun c => !letter c := by
      funext c; unfold letter; rw [Bool.eq_iff_iff]; simp
    have f2 : (fun c : Byte => decide ¬ Blank c) = fun c => !isWhitespace c := by
      funext c; rw [Bool.eq_iff_iff]; simp [← blank_white]
    rw [f1, f2]
  rw [hop]
  simp only at e1 ⊢
  have hv : (((codePart line).dropWhile fun c => !letter c).dropWhile fun c => !isWhitespace c) <:+ codePart line :=
    (List.dropWhile_suffix _).trans (List.dropWhile_suffix _)
  generalize ((codePart line).dropWhile fun c => !letter c).dropWhile (fun c => !isWhitespace c) = v at e1 hv
  split
  · rename_i h
    rw [if_pos h] at e1
    exact ⟨j, by rw [e1, e2]; rfl, hj⟩
  · rename_i h
    rw [if_neg h, Nat.zero_add] at e1
    refine ⟨j, ?_, hj⟩
    have := suffix_drop hv
    rw [← e1, e2, List.drop_append_of_le_length (by omega)] at this
    exact this.symm

theorem usedLabels_names (L : Locale) (line : Str) : (getUsedLabelsInLine L line).map (·.name) = mentioned line := by
  obtain ⟨j, e, hj⟩ := operand_eq line
  unfold getUsedLabelsInLine mentioned
  rw [e]
  simp only
  generalize getLineWithoutCommentAndStripFirstWord line = t
  have hq : c! '"' ∈ t ++ j ↔ c! '"' ∈ t := by
    rw [List.mem_append]
    constructor
    · rintro (h | h)
      · exact h
      · rcases hj _ h with h | h <;> exact absurd h (by decide)
    · exact .inl
  by_cases h : c! '"' ∈ t
  · rw [if_pos (by simpa using h), if_pos (hq.2 h)]; rfl
  · rw [if_neg (by simpa using h), if_neg (fun h' => h (hq.1 h')), usedLoop_names]
    unfold Re.range
    rw [range_words t _ 0 (by omega), List.drop_zero, words_append_junk _ _ _ _ fun c hc => spacy_junk (hj c hc)]


end AsmParser
