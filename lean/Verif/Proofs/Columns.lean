/-
Helper lemmas: the columns of the label references of a line.
-/
import Verif.Spec.Columns
import Verif.Proofs.References

namespace AsmParser
open Re Regexes

/-! ### The end of the code -/

/-- What is behind the first word. -/
def behindWord (s : Str) : Str := (s.dropWhile fun c => !letter c).dropWhile fun c => !isWhitespace c

theorem dropWhile_snoc (p : Byte → Bool) (s : Str) (c : Byte) :
    (s ++ [c]).dropWhile p = if s.dropWhile p = [] then (if p c then [] else [c]) else s.dropWhile p ++ [c] := by
  induction s with
  | nil => simp [List.dropWhile]; split <;> simp_all
  | cons d s ih =>
    rw [List.cons_append]
    by_cases h : p d = true
    · rw [List.dropWhile_cons_of_pos h, List.dropWhile_cons_of_pos h, ih]
    · rw [List.dropWhile_cons_of_neg h, List.dropWhile_cons_of_neg h]; simp

theorem behind_snoc (s : Str) (c : Byte) : behindWord (s ++ [c]) =
    if behindWord s ≠ [] then behindWord s ++ [c]
    else if (s.dropWhile fun c => !letter c) ≠ [] ∧ isWhitespace c = true then [c] else [] := by
  unfold behindWord
  rw [dropWhile_snoc]
  by_cases h : (s.dropWhile fun c => !letter c) = []
  · rw [if_pos h, h]
    simp only [List.dropWhile_nil, ne_eq, not_true_eq_false, if_false, false_and]
    split
    · rfl
    · rename_i hc
      have hc : letter c = true := by simpa using hc
      rw [List.dropWhile_cons_of_pos (by simp [(letter_spacy hc).1])]; rfl
  · rw [if_neg h, dropWhile_snoc]
    generalize List.dropWhile (fun c => !letter c) s = v at h
    generalize hv : (v.dropWhile fun c => !isWhitespace c) = u
    by_cases h' : u = []
    · subst h'
      cases hc : isWhitespace c <;> simp [h]
    · rw [if_neg h', if_pos h']

theorem letters_snoc (s : Str) (c : Byte) : ((s ++ [c]).dropWhile fun c => !letter c) ≠ [] ↔
    (s.dropWhile fun c => !letter c) ≠ [] ∨ letter c = true := by
  rw [dropWhile_snoc]
  by_cases h : (s.dropWhile fun c => !letter c) = []
  · rw [if_pos h]
    cases hc : letter c <;> simp [h]
  · rw [if_neg h]; simp [h]

/-- The text ends with code, and perhaps comment characters. -/
def EndsWith (d cc : Str) : Prop := ∃ u c, d = u ++ c :: cc ∧ ¬ spacy c ∧ ∀ x ∈ cc, isCommentChar x = true

/-- What is known about the text `dn` that was read. -/
structure ReadWord (n : Nat) (dn s : Str) (ws we sp : Bool) (lastit : Nat) : Prop where
  len : dn.length + s.length = n
  start : ws = true ↔ (dn.dropWhile fun c => !letter c) ≠ []
  stop : we = true ↔ behindWord dn ≠ []
  blank : sp = true → we = true ∧ ∃ d b j, dn = d ++ b :: j ∧ d.length = lastit ∧ isWhitespace b = true ∧ (∀ c ∈ j, spacy c) ∧
      ((∀ c ∈ behindWord dn, spacy c) ∨ EndsWith d [])
  code : sp = false → lastit = n ∧ (we = true → (∀ c ∈ behindWord dn, spacy c) ∨
      ∃ cc, EndsWith dn cc ∧ (cc ≠ [] → nextNonBlank s = true))

/-- The text is cut into `d` and the blanks behind it. -/
def CutAt (all : Str) (k : Nat) : Prop :=
  ∃ d j, all = d ++ j ∧ k = d.length ∧ (behindWord all = [] → j = []) ∧
      ((∀ c ∈ behindWord all, spacy c) ∨
        ∃ cc, EndsWith d cc ∧ (j = [] ∨ cc = [] ∧ ∃ b j', j = b :: j' ∧ isWhitespace b = true ∧ ∀ c ∈ j', spacy c))

theorem ReadWord.cut {n : Nat} {dn s : Str} {ws we sp : Bool} {lastit : Nat} (h : ReadWord n dn s ws we sp lastit) :
    CutAt dn (if sp then lastit else dn.length) := by
  cases sp with
  | true =>
    obtain ⟨g0, d, b, j, g1, g2, g3, g4, g5⟩ := h.blank rfl
    refine ⟨d, b :: j, g1, g2.symm, fun e => absurd e (h.stop.1 g0), ?_⟩
    rcases g5 with g5 | g5
    · exact .inl g5
    · exact .inr ⟨[], g5, .inr ⟨rfl, b, j, rfl, g3, g4⟩⟩
  | false =>
    refine ⟨dn, [], by simp, rfl, fun _ => rfl, ?_⟩
    by_cases hw : we = true
    · rcases (h.code rfl).2 hw with g | ⟨cc, g, -⟩
      · exact .inl g
      · exact .inr ⟨cc, g, .inl rfl⟩
    · left
      have : behindWord dn = [] := Classical.byContradiction fun e => hw (h.stop.2 e)
      rw [this]; simp

theorem letters_of_behind {s : Str} (h : behindWord s ≠ []) : (s.dropWhile fun c => !letter c) ≠ [] := by
  intro e
  unfold behindWord at h
  rw [e] at h
  exact h rfl

theorem sw_tail (n : Nat) (s dn : Str) (ws we sp : Bool) (after lastit : Nat) (h : ReadWord n dn s ws we sp lastit) :
    CutAt (dn ++ codePart s) (swLoop n s dn.length ws we sp after lastit).2 := by
  induction s generalizing dn ws we sp after lastit with
  | nil =>
    have := h.cut
    simp only [codePart, swLoop, List.append_nil]
    cases sp with
    | true => exact this
    | false =>
      have e := h.len
      rw [(h.code rfl).1, ← e]
      simpa using this
  | cons c s ih =>
    have ih := ih (dn ++ [c])
    have el : (dn ++ [c]).length = dn.length + 1 := by simp
    rw [el] at ih
    have hn' : (dn ++ [c]).length + s.length = n := by have := h.len; simp at this ⊢; omega
    rw [swLoop_cons]
    by_cases hstop : isCommentChar c = true ∧ nextNonBlank s = false
    · rw [code_stop hstop.1 hstop.2, List.append_nil, if_pos hstop.1, if_neg (by simp [hstop.2])]
      exact h.cut
    · rw [code_go hstop, show dn ++ c :: codePart s = (dn ++ [c]) ++ codePart s by simp]
      have grow : behindWord dn ≠ [] → behindWord (dn ++ [c]) = behindWord dn ++ [c] := by
        intro h; rw [behind_snoc, if_pos h]
      have keep : (∀ x ∈ behindWord dn, spacy x) → spacy c → ∀ x ∈ behindWord (dn ++ [c]), spacy x := by
        intro h1 h2 x hx
        rw [behind_snoc] at hx
        split at hx
        · rcases List.mem_append.1 hx with hx | hx
          · exact h1 x hx
          · rw [List.mem_singleton.1 hx]; exact h2
        · split at hx
          · rw [List.mem_singleton.1 hx]; exact h2
          · cases hx
      -- blanks and comment characters among the blanks
      have more : sp = true → spacy c → sp = true → we = true ∧ ∃ d b j, dn ++ [c] = d ++ b :: j ∧ d.length = lastit ∧ isWhitespace b = true ∧
          (∀ c ∈ j, spacy c) ∧ ((∀ x ∈ behindWord (dn ++ [c]), spacy x) ∨ EndsWith d []) := by
        intro hsp hc _
        obtain ⟨g0, d, b, j, g1, g2, g3, g4, g5⟩ := h.blank hsp
        refine ⟨g0, d, b, j ++ [c], by rw [g1]; simp, g2, g3, ?_, g5.imp (fun g => keep g hc) id⟩
        intro x hx
        rcases List.mem_append.1 hx with hx | hx
        · exact g4 x hx
        · rw [List.mem_singleton.1 hx]; exact hc
      have same : ¬ letter c = true → (we = true ∨ isWhitespace c = false ∨ ws = false) →
          (ws = true ↔ ((dn ++ [c]).dropWhile fun c => !letter c) ≠ []) ∧ (we = true ↔ behindWord (dn ++ [c]) ≠ []) := by
        intro h1 h2
        refine ⟨by rw [letters_snoc, ← h.start]; simp [h1], ?_⟩
        rw [behind_snoc]
        simp only [← h.start]
        by_cases hw : behindWord dn = []
        · have : we = false := Bool.eq_false_iff.2 fun e => h.stop.1 e hw
          rw [if_neg (by simp [hw]), this]
          rw [this] at h2
          rcases h2 with h2 | h2 | h2
          · cases h2
          · simp [h2]
          · simp [h2]
        · rw [if_pos hw, h.stop.2 hw]; simp
      -- code
      have other : ¬ spacy c → EndsWith (dn ++ [c]) [] := fun hc => ⟨dn, c, by simp, hc, by simp⟩
      split
      · rename_i hcc
        have hnb : nextNonBlank s = true := by
          cases h : nextNonBlank s
          · exact absurd ⟨hcc, h⟩ hstop
          · rfl
        rw [if_pos hnb]
        have hlet : ¬ letter c = true := fun hl => by rw [(letter_spacy hl).2] at hcc; cases hcc
        have hwh : isWhitespace c = false := by
          cases hh : isWhitespace c
          · rfl
          · rw [white_not_comment hh] at hcc; cases hcc
        obtain ⟨k1, k2⟩ := same hlet (.inr (.inl hwh))
        refine ih _ _ _ _ _ ⟨hn', k1, k2, fun hsp => more hsp (.inr hcc) hsp, fun hsp => ⟨(h.code hsp).1, fun hw => ?_⟩⟩
        rcases (h.code hsp).2 hw with g | ⟨cc, ⟨u, d, g1, g2, g3⟩, -⟩
        · exact .inl (keep g (.inr hcc))
        · refine .inr ⟨cc ++ [c], ⟨u, d, by rw [g1]; simp, g2, ?_⟩, fun _ => hnb⟩
          intro x hx
          rcases List.mem_append.1 hx with hx | hx
          · exact g3 x hx
          · rw [List.mem_singleton.1 hx]; exact hcc
      · rename_i hcc
        split
        · rename_i hh
          have hh : ws = false ∧ letter c = true := by simpa [letter_eq] using hh
          have hwe : we = false := Bool.eq_false_iff.2 fun e => by
            have := h.start.2 (letters_of_behind (h.stop.1 e))
            rw [hh.1] at this; cases this
          have hsp : sp = false := Bool.eq_false_iff.2 fun e => by
            have := (h.blank e).1; rw [hwe] at this; cases this
          refine ih _ _ _ _ _ ⟨hn', ?_, ?_, by simp [hsp], fun hs => ⟨(h.code hs).1, fun hw => by rw [hwe] at hw; cases hw⟩⟩
          · rw [letters_snoc]; simp [hh.2]
          · rw [behind_snoc]
            have : behindWord dn = [] := Classical.byContradiction fun e => by rw [h.stop.2 e] at hwe; cases hwe
            simp [this, hwe, (letter_spacy hh.2).1]
        · rename_i hws
          have hws : ws = true ∨ ¬ letter c = true := by
            cases hw : ws
            · right; intro hl; exact hws (by simp [hw, letter_eq, hl])
            · exact .inl rfl
          have k1 : ws = true ↔ ((dn ++ [c]).dropWhile fun c => !letter c) ≠ [] := by
            rw [letters_snoc, ← h.start]
            rcases hws with h | h <;> simp [h]
          split
          · rename_i hh
            have hh : (ws = true ∧ we = false) ∧ isWhitespace c = true := by simpa using hh
            have hsp : sp = false := Bool.eq_false_iff.2 fun e => by
              have := (h.blank e).1; rw [hh.1.2] at this; cases this
            have hb : behindWord dn = [] := Classical.byContradiction fun e => by have := h.stop.2 e; rw [hh.1.2] at this; cases this
            have hb' : behindWord (dn ++ [c]) = [c] := by
              rw [behind_snoc, if_neg (by simp [hb]), if_pos ⟨h.start.1 hh.1.1, hh.2⟩]
            refine ih _ _ _ _ _ ⟨hn', k1, by simp [hb'], by simp [hsp], fun hs => ⟨(h.code hs).1, fun _ => .inl ?_⟩⟩
            rw [hb']
            intro x hx
            rw [List.mem_singleton.1 hx]; exact .inl hh.2
          · rename_i hh
            have k2 : we = true ↔ behindWord (dn ++ [c]) ≠ [] := by
              rw [behind_snoc]
              simp only [← h.start]
              by_cases hw : behindWord dn = []
              · have e : we = false := Bool.eq_false_iff.2 fun e => h.stop.1 e hw
                rw [if_neg (by simp [hw]), e]
                rw [e] at hh
                have : ¬ (ws = true ∧ isWhitespace c = true) := by simpa using hh
                rw [if_neg this]; simp
              · rw [if_pos hw, h.stop.2 hw]; simp
            split
            · rename_i hwe
              split
              · rename_i hsp
                split
                · rename_i hc
                  have hc : ¬ spacy c := fun e => by
                    rcases e with e | e
                    · simp [e] at hc
                    · exact hcc e
                  exact ih _ _ _ _ _ ⟨hn', k1, k2, by simp, fun _ => ⟨rfl, fun _ => .inr ⟨[], other hc, fun e => absurd rfl e⟩⟩⟩
                · rename_i hc
                  have hc : spacy c := .inl (by simpa using hc)
                  exact ih _ _ _ _ _ ⟨hn', k1, k2, more hsp hc, fun e => by rw [hsp] at e; cases e⟩
              · rename_i hsp
                have hsp : sp = false := by simpa using hsp
                split
                · rename_i hc
                  refine ih _ _ _ _ _ ⟨hn', k1, k2, fun _ => ⟨hwe, dn, c, [], rfl, rfl, hc, by simp, ?_⟩, by simp⟩
                  rcases (h.code hsp).2 hwe with g | ⟨cc, g, g'⟩
                  · exact .inl (keep g (.inl hc))
                  · right
                    have : cc = [] := Classical.byContradiction fun e => by
                      have := g' e
                      simp [nextNonBlank, hc] at this
                    rwa [this] at g
                · rename_i hc
                  have hc : ¬ spacy c := fun e => by
                    rcases e with e | e
                    · exact hc e
                    · exact hcc e
                  exact ih _ _ _ _ _ ⟨hn', k1, k2, by simp [hsp], fun hs => ⟨(h.code hs).1, fun _ => .inr ⟨[], other hc, fun e => absurd rfl e⟩⟩⟩
            · rename_i hwe
              refine ih _ _ _ _ _ ⟨hn', k1, k2, fun e => absurd (h.blank e).1 hwe, fun hs => ⟨(h.code hs).1, fun e => absurd e hwe⟩⟩

theorem spacy_iff (c : Byte) : (Blank c ∨ c = c! ';' ∨ c = c! '#') ↔ spacy c := by
  unfold spacy
  rw [commentChar_iff, blank_white]

theorem margin_of {d cc j : Str} (h : EndsWith d cc)
    (hj : j = [] ∨ cc = [] ∧ ∃ b j', j = b :: j' ∧ isWhitespace b = true ∧ ∀ c ∈ j', spacy c) : marginPart (d ++ j) = j := by
  obtain ⟨u, c, rfl, hc, hcc⟩ := h
  have hall : ∀ x ∈ cc ++ j, spacy x := by
    intro x hx
    rcases List.mem_append.1 hx with hx | hx
    · exact .inr (hcc x hx)
    · rcases hj with rfl | ⟨-, b, j', rfl, hb, hj⟩
      · cases hx
      · rcases List.mem_cons.1 hx with rfl | hx
        · exact .inl hb
        · exact hj x hx
  have key : ∀ (P : Byte → Bool), (∀ x, P x = true ↔ spacy x) → ((u ++ c :: (cc ++ j)).reverse.takeWhile P).reverse = cc ++ j := by
    intro P hP
    generalize cc ++ j = v at hall
    rw [List.reverse_append, List.reverse_cons, List.append_assoc,
      List.takeWhile_append_of_pos (fun x hx => (hP x).2 (hall x (List.mem_reverse.1 hx))), List.singleton_append,
      List.takeWhile_cons_of_neg (fun h => hc ((hP c).1 h)), List.append_nil, List.reverse_reverse]
  unfold marginPart
  rw [show u ++ c :: cc ++ j = u ++ c :: (cc ++ j) by simp, key _ fun x => by rw [decide_eq_true_eq]; exact spacy_iff x]
  rcases hj with rfl | ⟨rfl, b, j', rfl, hb, -⟩
  · rw [List.append_nil]
    induction cc with
    | nil => rfl
    | cons x cc ih =>
      have hx : ¬ Blank x := fun h => by
        have := hcc x (by simp)
        rw [white_not_comment ((blank_white x).2 h)] at this; cases this
      rw [List.dropWhile_cons_of_pos (by simpa using hx)]
      exact ih (fun y hy => hcc y (by simp [hy])) (fun y hy => hall y (by simp at hy ⊢; exact .inr hy)) (by
        intro P hP
        rw [List.append_nil]
        rw [List.reverse_append, List.reverse_cons, List.append_assoc,
          List.takeWhile_append_of_pos (fun y hy => (hP y).2 (.inr (hcc y (by simp [List.mem_reverse.1 hy])))), List.singleton_append,
          List.takeWhile_cons_of_neg (fun h => hc ((hP c).1 h)), List.append_nil, List.reverse_reverse])
  · rw [List.nil_append, List.dropWhile_cons_of_neg (by simpa using (blank_white b).1 hb)]

/-! ### The words -/

theorem spots_cons (n : Nat) (sg cur : Str) (c : Byte) (s : Str) : wordSpots n sg cur (c :: s) =
    if cur ≠ [] ∧ inWord c then wordSpots (n + 1) sg (cur ++ [c]) s
    else
      (if cur = [] then [] else [(n - cur.length, sg, cur)]) ++
        if startsWord c then wordSpots (n + 1) (if cur = [] then sg else []) [c] s
        else wordSpots (n + 1) (if isSigil c then [c] else []) [] s := by rw [wordSpots]

theorem spots_nil (n : Nat) (sg : Str) (c : Byte) (s : Str) : wordSpots n sg [] (c :: s) =
    if startsWord c then wordSpots (n + 1) sg [c] s else wordSpots (n + 1) (if isSigil c then [c] else []) [] s := by
  rw [spots_cons]; simp

theorem spots_cur (n : Nat) (sg cur s : Str) (hc : cur ≠ []) :
    wordSpots n sg cur s = (n - cur.length, sg, cur ++ s.takeWhile inWord) ::
      wordSpots (n + (s.takeWhile inWord).length) [] [] (s.dropWhile inWord) := by
  induction s generalizing cur n with
  | nil => simp [wordSpots, hc]
  | cons c s ih =>
    rw [spots_cons]
    by_cases h : inWord c = true
    · rw [if_pos ⟨hc, h⟩, ih (n + 1) (cur ++ [c]) (by simp), List.takeWhile_cons_of_pos h, List.dropWhile_cons_of_pos h]
      simp only [List.length_append, List.length_cons, List.length_nil, Nat.zero_add, List.append_assoc, List.singleton_append]
      rw [Nat.add_sub_add_right, show n + 1 + (s.takeWhile inWord).length = n + ((s.takeWhile inWord).length + 1) by omega]
    · rw [if_neg (fun h' => h h'.2), if_neg hc, if_neg hc, List.takeWhile_cons_of_neg h, List.dropWhile_cons_of_neg h, spots_nil]
      simp

theorem spots_sigil (n : Nat) (sg s : Str) (h : ∀ d ∈ s.head?, startsWord d = false) : wordSpots n sg [] s = wordSpots n [] [] s := by
  cases s with
  | nil => rfl
  | cons c s =>
    have hc : startsWord c = false := h c (by simp)
    rw [spots_nil, spots_nil, hc]; rfl

theorem spots_junk (n : Nat) (sg cur j : Str) (hj : ∀ c ∈ j, junk c) :
    wordSpots n sg cur j = if cur = [] then [] else [(n - cur.length, sg, cur)] := by
  induction j generalizing n sg cur with
  | nil => rfl
  | cons c j ih =>
    obtain ⟨h1, h2, h3⟩ := hj c (by simp)
    rw [spots_cons, if_neg (by simp [h2]), h1]
    simp only [Bool.false_eq_true, if_false]
    rw [ih _ _ _ fun d hd => hj d (by simp [hd])]
    simp

theorem spots_append_junk (n : Nat) (sg cur s j : Str) (hj : ∀ c ∈ j, junk c) : wordSpots n sg cur (s ++ j) = wordSpots n sg cur s := by
  induction s generalizing n sg cur with
  | nil => rw [List.nil_append, spots_junk n sg cur j hj]; rfl
  | cons c s ih =>
    rw [List.cons_append, spots_cons, spots_cons]
    simp only [ih]

theorem spots_shift (n a : Nat) (sg cur s : Str) (h : cur.length ≤ n) :
    wordSpots (n + a) sg cur s = (wordSpots n sg cur s).map fun w => (w.1 + a, w.2) := by
  induction s generalizing n sg cur with
  | nil =>
    unfold wordSpots
    split
    · rfl
    · simp; omega
  | cons c s ih =>
    rw [spots_cons, spots_cons]
    rw [Nat.add_right_comm]
    have h0 : wordSpots (n + 1 + a) (if isSigil c = true then [c] else []) [] s = _ := ih (n + 1) _ [] (by simp)
    have h1 : wordSpots (n + 1 + a) (if cur = [] then sg else []) [c] s = _ := ih (n + 1) _ [c] (by simp)
    have h2 : wordSpots (n + 1 + a) sg (cur ++ [c]) s = _ := ih (n + 1) _ (cur ++ [c]) (by simp; omega)
    rw [h0, h1, h2]
    split
    · rfl
    · rw [List.map_append]
      congr 1
      · split
        · rfl
        · simp; omega
      · split <;> rfl

/-- The next match, and what is behind it. -/
theorem search_spots (p : Nat) (t : Str) :
    (usedLabel.searchFrom p t = none ∧ wordSpots p [] [] t = []) ∨
    ∃ m u z, usedLabel.searchFrom p t = some m ∧ t = u ++ z ∧ u ≠ [] ∧ m.stop = p + u.length ∧
      wordSpots p [] [] t = (m.stop - (m.get 2).length, m.get 1, m.get 2) :: wordSpots m.stop [] [] z := by
  induction t generalizing p with
  | nil =>
    left
    refine ⟨?_, rfl⟩
    rcases search_words p [] with ⟨h, -⟩ | ⟨m, u, z, -, h, h', -⟩
    · exact h
    · exact absurd (List.append_eq_nil_iff.1 h.symm).1 h'
  | cons c t ih =>
    have hit : ∀ {st : MSt}, First usedLabel ⟨p, c :: t, []⟩ st → usedLabel.searchFrom p (c :: t) = some ⟨p, st.pos, st.caps⟩ := by
      intro st h
      unfold First at h
      unfold Re.searchFrom
      cases hr : usedLabel.run ⟨p, c :: t, []⟩ with
      | nil => rw [hr] at h; simp at h
      | cons a l => rw [hr] at h; simp at h; subst h; rfl
    have miss : startsWord c = false → (isSigil c = true → ∀ d ∈ t.head?, startsWord d = false) →
        usedLabel.searchFrom p (c :: t) = usedLabel.searchFrom (p + 1) t := by
      intro h1 h2
      conv => lhs; unfold Re.searchFrom
      rw [run_none p c t h1 h2]
    have htd : ∀ s : Str, s = s.takeWhile inWord ++ s.dropWhile inWord := fun s => List.takeWhile_append_dropWhile.symm
    have later : startsWord c = false → (isSigil c = true → ∀ d ∈ t.head?, startsWord d = false) →
        (usedLabel.searchFrom p (c :: t) = none ∧ wordSpots p [] [] (c :: t) = []) ∨
        ∃ m u z, usedLabel.searchFrom p (c :: t) = some m ∧ c :: t = u ++ z ∧ u ≠ [] ∧ m.stop = p + u.length ∧
          wordSpots p [] [] (c :: t) = (m.stop - (m.get 2).length, m.get 1, m.get 2) :: wordSpots m.stop [] [] z := by
      intro h1 h2
      have hw : wordSpots p [] [] (c :: t) = wordSpots (p + 1) [] [] t := by
        rw [spots_nil, h1]
        simp only [Bool.false_eq_true, if_false]
        split
        · rename_i h; exact spots_sigil _ _ _ (h2 h)
        · rfl
      rw [miss h1 h2, hw]
      rcases ih (p + 1) with h | ⟨m, u, z, g1, g2, g3, g4, g5⟩
      · exact .inl h
      · exact .inr ⟨m, c :: u, z, g1, by rw [g2]; rfl, by simp, by rw [g4]; simp; omega, g5⟩
    cases hs : startsWord c with
    | true =>
      right
      refine ⟨_, c :: t.takeWhile inWord, t.dropWhile inWord, hit (run_plain p c t hs), ?_, by simp, ?_, ?_⟩
      · rw [List.cons_append, ← htd]
      · simp; omega
      · rw [spots_nil, hs]
        simp only [if_true]
        rw [spots_cur _ _ _ _ (by simp)]
        simp [Match.get, List.lookup]
        omega
    | false =>
      cases hg : isSigil c with
      | false => exact later hs (by simp [hg])
      | true =>
        cases t with
        | nil => exact later hs (by simp)
        | cons d t =>
          cases hd : startsWord d with
          | false => exact later hs (by simp [hd])
          | true =>
            right
            refine ⟨_, c :: d :: t.takeWhile inWord, t.dropWhile inWord, hit (run_sigil p c d t hg hd), ?_, by simp, ?_, ?_⟩
            · rw [List.cons_append, List.cons_append, ← htd]
            · simp; omega
            · rw [spots_nil, hs]
              simp only [Bool.false_eq_true, if_false, hg, if_true]
              rw [spots_nil, hd]
              simp only [if_true]
              rw [spots_cur _ _ _ _ (by simp)]
              simp [Match.get, List.lookup]
              omega

/-- The references of the text `s`, with columns from `k` on. -/
def spotRefs (k : Nat) (ws : List (Nat × Str × Str)) : List AsmLabel :=
  ws.flatMap fun w =>
    let start := w.1 + k
    let stop := start + w.2.2.length
    if w.2.1 = [] then [{ name := w.2.2, startCol := start % 65536, endCol := stop % 65536 }]
    else [{ name := w.2.2, startCol := start % 65536, endCol := stop % 65536 },
          { name := w.2.1 ++ w.2.2, startCol := (start - 1) % 65536, endCol := stop % 65536 }]

theorem range_spots {L : Locale} (hL : L.Ascii) (s : Str) (k : Nat) (hk : 0 < k) (fuel pos : Nat) (hf : s.length - pos < fuel)
    (hp : pos ≤ s.length) :
    usedLabelsLoop L s k (usedLabel.rangeAux s fuel pos) pos = spotRefs k (wordSpots pos [] [] (s.drop pos)) := by
  induction fuel generalizing pos with
  | zero => omega
  | succ fuel ih =>
    unfold Re.rangeAux
    rcases search_spots pos (s.drop pos) with ⟨h1, h2⟩ | ⟨m, u, z, h1, h2, h3, h4, h5⟩
    · rw [h1, h2]; rfl
    · have hra := searchFrom_refAt hp h1
      obtain ⟨loc, f1, f2, f3, f4, f5, f6⟩ := find_refAt hra
      obtain ⟨c, t, hy, hc, ht⟩ := hra.name
      have hul : ustrlen L (m.get 2) = (m.get 2).length := by
        apply ustrlen_ascii hL
        rw [hy]
        intro d hd
        rcases List.mem_cons.1 hd with rfl | hd
        · exact refStart_ascii (.inl hc)
        · exact refStart_ascii (.inr (ht d hd))
      rw [h1, h5]
      have hu : 0 < u.length := List.length_pos_iff.2 h3
      have hz : s.drop m.stop = z := by
        rw [h4, ← List.drop_drop, h2, List.drop_left' rfl]
      simp only
      unfold usedLabelsLoop
      simp only [f1, Option.getD_some, hul, f2]
      rw [ih m.stop (by omega) f4, hz]
      unfold spotRefs
      rw [List.flatMap_cons]
      congr 1
      simp only
      rw [show m.stop - (m.get 2).length = loc by omega]
      cases hg : m.get 1 with
      | nil => rfl
      | cons a r =>
        simp only [List.isEmpty_cons, Bool.false_eq_true, if_false, reduceCtorEq]
        rw [show ((loc + k) % 65536 + 65535) % 65536 = (loc + k - 1) % 65536 by omega]

theorem operand_behind (code : Str) : operandPart code = if behindWord code = [] then code else behindWord code := by
  unfold operandPart behindWord
  have f1 : (fun c : Byte => decide ¬ ((97 ≤ c ∧ c ≤ 122) ∨ (65 ≤ c ∧ c ≤ 90))) = fun c => !letter c := by
    funext c; unfold letter; rw [Bool.eq_iff_iff]; simp
  have f2 : (fun c : Byte => decide ¬ Blank c) = fun c => !isWhitespace c := by
    funext c; rw [Bool.eq_iff_iff]; simp [← blank_white]
  rw [f1, f2]

theorem behind_length (s : Str) (h : behindWord s ≠ []) : (behindWord s).length < s.length := by
  induction s with
  | nil => exact absurd rfl h
  | cons c s ih =>
    unfold behindWord at h ⊢
    cases hc : letter c with
    | true =>
      rw [List.dropWhile_cons_of_neg (by simp [hc]), List.dropWhile_cons_of_pos (by simp [(letter_spacy hc).1])]
      have := (List.dropWhile_suffix (fun c => !isWhitespace c) (l := s)).length_le
      simp only [List.length_cons]; omega
    | false =>
      rw [List.dropWhile_cons_of_pos (by simp [hc])] at h ⊢
      have := ih h
      unfold behindWord at this
      simp only [List.length_cons]; omega

theorem code_prefix (s : Str) : codePart s <+: s := by
  induction s with
  | nil => exact List.prefix_refl _
  | cons c s ih =>
    rw [codePart]
    split
    · exact List.nil_prefix
    · exact List.cons_prefix_cons.2 ⟨rfl, ih⟩

theorem usedLabels_exact {L : Locale} (hL : L.Ascii) (line : Str) : getUsedLabelsInLine L line = referencesIn line := by
  obtain ⟨j0, e, hj0⟩ := operand_eq line
  have e1 := sw_start line.length line 0 line.length
  have hcut := sw_tail line.length line [] false false false 0 line.length
    ⟨by simp, by simp, by simp [behindWord], by simp, fun _ => ⟨rfl, by simp⟩⟩
  have hb := swLoop_bounds line.length line 0 false false false 0 line.length (by simp) (Nat.le_refl _) (Nat.le_refl _)
    (by simp) (fun _ => rfl) (fun _ => rfl)
  have hlen : (getLineWithoutCommentAndStripFirstWord line).length =
      (swLoop line.length line 0 false false false 0 line.length).2 - (swLoop line.length line 0 false false false 0 line.length).1 := by
    unfold getLineWithoutCommentAndStripFirstWord
    simp only [List.length_drop, List.length_take]
    omega
  rw [List.length_nil, List.nil_append] at hcut
  generalize swLoop line.length line 0 false false false 0 line.length = r at e1 hcut hb hlen
  obtain ⟨d, j, c1, c2, c3, c4⟩ := hcut
  have hq : c! '"' ∈ operandPart (codePart line) ↔ c! '"' ∈ getLineWithoutCommentAndStripFirstWord line := by
    rw [e, List.mem_append]
    constructor
    · rintro (h | h)
      · exact h
      · rcases hj0 _ h with h | h <;> exact absurd h (by decide)
    · exact .inl
  have hspots : ∀ n, wordSpots n [] [] (operandPart (codePart line)) = wordSpots n [] [] (getLineWithoutCommentAndStripFirstWord line) := by
    intro n
    rw [e, spots_append_junk _ _ _ _ _ fun c hc => spacy_junk (hj0 c hc)]
  unfold getUsedLabelsInLine referencesIn
  simp only
  by_cases h : c! '"' ∈ getLineWithoutCommentAndStripFirstWord line
  · rw [if_pos (by simpa using h), if_pos (hq.2 h)]
  · rw [if_neg (by simpa using h), if_neg (fun h' => h (hq.1 h'))]
    unfold Re.range
    rw [range_spots hL _ _ (by omega) _ 0 (by omega) (by omega), List.drop_zero]
    rw [hspots, ← Nat.zero_add ((codePart line).length - _), spots_shift _ _ _ _ _ (by simp)]
    -- no words at all, or the columns are right
    have hor : wordSpots 0 [] [] (getLineWithoutCommentAndStripFirstWord line) = [] ∨
        line.length - (getLineWithoutCommentAndStripFirstWord line).length + 1 =
          (codePart line).length - (operandPart (codePart line)).length + 1 + overshoot line := by
      have hc := (code_prefix line).length_le
      have lc := congrArg List.length c1
      rw [List.length_append] at lc
      have hov : ∀ k, k = j.length → line.length - (getLineWithoutCommentAndStripFirstWord line).length + 1 =
          (codePart line).length - (operandPart (codePart line)).length + 1 + (line.length - (codePart line).length + k) := by
        intro k hk
        rw [hk, hlen, operand_behind]
        simp only at e1
        change r.1 = if behindWord (codePart line) = [] then 0 else 0 + ((codePart line).length - (behindWord (codePart line)).length) at e1
        split
        · rename_i hh
          rw [if_pos hh] at e1
          omega
        · rename_i hh
          rw [if_neg hh] at e1
          have := behind_length _ hh
          omega
      unfold overshoot
      by_cases hbe : behindWord (codePart line) = []
      · right
        refine hov _ ?_
        rw [operand_behind, if_pos hbe, if_pos rfl, c3 hbe]; rfl
      · have hne : operandPart (codePart line) ≠ codePart line := by
          rw [operand_behind, if_neg hbe]
          intro h
          have := behind_length _ hbe
          rw [h] at this
          omega
        rw [if_neg hne]
        rcases c4 with c4 | ⟨cc, c4, c5⟩
        · left
          rw [← hspots, operand_behind, if_neg hbe, spots_junk _ _ _ _ fun c hc => spacy_junk (c4 c hc)]
          rfl
        · right
          refine hov _ ?_
          conv => lhs; rw [c1, margin_of c4 c5]
    rcases hor with hor | hor
    · rw [hor]; rfl
    · rw [hor]
      unfold spotRefs
      rw [List.flatMap_map]
      congr 1
      funext w
      simp only
      rw [show w.1 + ((codePart line).length - (operandPart (codePart line)).length + 1 + overshoot line) =
        w.1 + ((codePart line).length - (operandPart (codePart line)).length) + 1 + overshoot line by omega]

end AsmParser
