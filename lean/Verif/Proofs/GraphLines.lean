/-
Helper lemmas: the labels, instructions and declarations of single lines.
-/
import Verif.Spec.Graph
import Verif.Proofs.ReferenceLines
import Verif.Proofs.Recognize

namespace AsmParser
open Re Regexes

/-! ### Instructions -/

theorem takeWhile_cases {α : Type} (P : α → Bool) (l : List α) : (l.takeWhile P = l ∧ ∀ x ∈ l, P x = true) ∨
    ∃ a x b, l = a ++ x :: b ∧ l.takeWhile P = a ∧ P x = false ∧ ∀ x ∈ a, P x = true := by
  induction l with
  | nil => exact .inl ⟨rfl, by simp⟩
  | cons y l ih =>
    cases hy : P y with
    | false => exact .inr ⟨[], y, l, rfl, by rw [List.takeWhile_cons, hy]; rfl, hy, by simp⟩
    | true =>
      rcases ih with ⟨h1, h2⟩ | ⟨a, x, b, rfl, h2, h3, h4⟩
      · exact .inl ⟨by rw [List.takeWhile_cons, hy, h1]; rfl, by simpa [hy] using h2⟩
      · exact .inr ⟨y :: a, x, b, rfl, by rw [List.takeWhile_cons, hy, h2]; rfl, h3, by simpa [hy] using h4⟩

/-- A text is what is before the last part with a property, and this part. -/
theorem dropRight_split (P : Byte → Bool) (s : Str) : ∃ w, s = (s.reverse.dropWhile P).reverse ++ w ∧ (∀ c ∈ w, P c = true) ∧
    ∀ c ∈ (s.reverse.dropWhile P).reverse.getLast?, P c = false := by
  refine ⟨(s.reverse.takeWhile P).reverse, ?_, ?_, ?_⟩
  · rw [← List.reverse_append, List.takeWhile_append_dropWhile, List.reverse_reverse]
  · intro c hc
    exact mem_takeWhile (by simpa using hc)
  · intro c hc
    rw [List.getLast?_reverse] at hc
    have := List.head?_dropWhile_not P s.reverse
    rw [hc] at this
    simpa using this

theorem counted_eq (line : Str) : getLineWithoutComment line = counted line := by
  unfold counted
  simp only
  rcases takeWhile_cases (fun c => decide (¬ CommentChar c)) line with ⟨h1, h2⟩ | ⟨a, x, b, rfl, h2, h3, h4⟩
  · rw [h1, if_neg (Nat.lt_irrefl _)]
    have hn : ∀ c ∈ line, ¬ CommentChar c := fun c hc => by simpa using h2 c hc
    obtain ⟨w, e1, hw, hl⟩ := dropRight_split (fun c => decide (¬ Blank c)) line
    generalize (line.reverse.dropWhile fun c => decide (¬ Blank c)).reverse = u at *
    obtain ⟨v, e2, hv, hl2⟩ := dropRight_split (fun c => decide (Blank c)) u
    change u = trimRight u ++ v at e2
    change ∀ c ∈ (trimRight u).getLast?, _ at hl2
    have hw' : ∀ c ∈ w, ¬ Blank c := fun c hc => by simpa using hw c hc
    have hv' : Blanks v := fun c hc => by simpa using hv c hc
    split
    · rename_i h
      rw [h, List.nil_append] at e2
      subst e2
      exact (C27_no_comment_partial line hn).1 u w e1 hv' hw'
    · rename_i h
      have hvn : v ≠ [] := by
        rintro rfl
        rw [List.append_nil] at e2
        rw [← e2] at hl2
        cases hg : u.getLast? with
        | none =>
          rw [List.getLast?_eq_none_iff] at hg
          rw [hg] at e2
          exact h (by rw [hg]; exact e2.symm)
        | some c =>
          have g1 := hl c hg
          have g2 := hl2 c hg
          simp at g1 g2
          exact g2 g1
      have := lwc_words (trimRight u) v w h (fun c hc => by simpa using hl2 c hc) hv' hvn hw' (by rw [← e2, ← e1]; exact hn)
      rwa [← e2, ← e1] at this
  · have h3 : CommentChar x := by simpa using h3
    have h4 : ∀ d ∈ a, ¬ CommentChar d := fun d hd => by simpa using h4 d hd
    rw [h2, if_pos (by simp), C27_comment a b x h3 h4]

theorem hasOpcode_iff (line : Str) (code : Bool) : hasOpcode line code = true ↔ Instruction code line := by
  unfold hasOpcode Instruction
  rw [counted_eq]
  generalize counted line = l
  simp only
  have h1 : (instOpcodeRe.search l).isSome = true ↔ Contains l b! ".inst" := isInstOpcode_iff l
  have h2 : (assignmentDef.fullMatch l).isSome = true ↔ ∃ a, AssignsOnly l a := by
    constructor
    · intro h
      have : (getAssignmentDef l).isSome = true := by unfold getAssignmentDef; rw [Option.isSome_map]; exact h
      obtain ⟨a, ha⟩ := Option.isSome_iff_exists.1 this
      exact ⟨a, (getAssignmentDef_iff _ _).1 ha⟩
    · rintro ⟨a, ha⟩
      have := (getAssignmentDef_iff _ _).2 ha
      have : (getAssignmentDef l).isSome = true := by rw [this]; rfl
      unfold getAssignmentDef at this; rwa [Option.isSome_map] at this
  by_cases g1 : Contains l b! ".inst"
  · rw [if_pos (h1.2 g1)]; simp [g1]
  rw [if_neg (fun h => g1 (h1.1 h))]
  by_cases g2 : ∃ a, AssignsOnly l a
  · rw [if_pos (h2.2 g2)]
    simp only [Bool.false_eq_true, false_iff]
    rintro (h | ⟨h, -⟩)
    · exact g1 h
    · obtain ⟨a, ha⟩ := g2; exact h a ha
  rw [if_neg (fun h => g2 (h2.1 h))]
  have g3 : (∀ a, ¬ AssignsOnly l a) := fun a ha => g2 ⟨a, ha⟩
  simp only [g1, false_or, g3, not_false_eq_true, implies_true, true_and]
  cases code with
  | true =>
    simp only [if_true]
    rw [fullMatch_isSome]
    unfold hasNvccOpcodeRe
    constructor
    · rintro ⟨cs, h⟩
      have hl : Lang (.seq (.seq .bol hs) (.cls fun c => c == c! '@' || isAlpha c || c == c! '|')) 0 l [] cs := h
      simp only [lang_seq, lang_bol, lang_hs, lang_cls] at hl
      obtain ⟨_, _, _, _, rfl, ⟨_, bs, _, _, rfl, ⟨rfl, -, rfl⟩, ⟨hb, rfl⟩, rfl⟩, ⟨⟨c, rfl, hc⟩, rfl⟩, rfl⟩ := hl
      refine ⟨bs, c, blanks_iff.1 hb, ?_, by simp⟩
      simp only [Bool.or_eq_true, beq_iff_eq, letter_iff] at hc
      rcases hc with (hc | hc) | hc
      · exact .inr (.inl hc)
      · exact .inl hc
      · exact .inr (.inr hc)
    · rintro ⟨bs, c, hb, hc, rfl⟩
      refine ⟨[], ?_⟩
      show Lang (.seq (.seq .bol hs) (.cls _)) _ _ _ _
      simp only [lang_seq, lang_bol, lang_hs, lang_cls]
      refine ⟨bs, [c], [], [], rfl, ⟨[], bs, [], [], rfl, ⟨rfl, trivial, rfl⟩, ⟨blanks_iff.2 hb, rfl⟩, rfl⟩, ⟨⟨c, rfl, ?_⟩, rfl⟩, rfl⟩
      simp only [Bool.or_eq_true, beq_iff_eq, letter_iff]
      rcases hc with hc | hc | hc
      · exact .inl (.inr hc)
      · exact .inl (.inl hc)
      · exact .inr hc
  | false =>
    simp only [Bool.false_eq_true, if_false]
    rw [search_isSome]
    unfold hasOpcodeRe
    constructor
    · rintro ⟨u, w, rest, cs, e, h⟩
      have hl : Lang (.seq (.seq .bol hs) (.cls isAlpha)) u.length w rest cs := h
      simp only [lang_seq, lang_bol, lang_hs, lang_cls] at hl
      obtain ⟨_, _, _, _, rfl, ⟨_, bs, _, _, rfl, ⟨rfl, hu, rfl⟩, ⟨hb, rfl⟩, rfl⟩, ⟨⟨c, rfl, hc⟩, rfl⟩, rfl⟩ := hl
      have hu : u = [] := List.length_eq_zero_iff.1 hu
      subst hu
      exact ⟨bs, c, rest, blanks_iff.1 hb, (letter_iff c).1 hc, by rw [e]; simp⟩
    · rintro ⟨bs, c, r, hb, hc, rfl⟩
      refine ⟨[], bs ++ [c], r, [], by simp, ?_⟩
      show Lang (.seq (.seq .bol hs) (.cls _)) _ _ _ _
      simp only [lang_seq, lang_bol, lang_hs, lang_cls]
      exact ⟨bs, [c], [], [], rfl, ⟨[], bs, [], [], rfl, ⟨rfl, rfl, rfl⟩, ⟨blanks_iff.2 hb, rfl⟩, rfl⟩, ⟨⟨c, rfl, (letter_iff c).2 hc⟩, rfl⟩, rfl⟩

/-- The part that counts is the beginning of the line. -/
theorem counted_prefix (line : Str) : counted line <+: line := by rw [← counted_eq]; exact (C27_prefix line).1

theorem trimRight_ink {s : Str} (h : trimRight s ≠ []) : ¬ Blanks (trimRight s) := by
  intro hb
  unfold trimRight at h hb
  cases hd : s.reverse.dropWhile (fun c => decide (Blank c)) with
  | nil => rw [hd] at h; exact h rfl
  | cons c r =>
    have h1 := hb c (by rw [hd]; simp)
    have h2 := List.head_dropWhile_not (fun c => decide (Blank c)) (l := s.reverse) (by rw [hd]; simp)
    simp only [hd, List.head_cons, decide_eq_false_iff_not] at h2
    exact h2 h1

theorem trimRight_blanks {s : Str} (h : trimRight s = []) : Blanks s := by
  unfold trimRight at h
  rw [List.reverse_eq_nil_iff] at h
  intro c hc
  have h1 := List.takeWhile_append_dropWhile (p := fun c => decide (Blank c)) (l := s.reverse)
  rw [h, List.append_nil] at h1
  have hc : c ∈ s.reverse := List.mem_reverse.2 hc
  rw [← h1] at hc
  exact of_decide_eq_true (mem_takeWhile (P := fun c => decide (Blank c)) hc)

theorem counted_ink {line : Str} (h : ∃ bs c r, Blanks bs ∧ ¬ Blank c ∧ ¬ CommentChar c ∧ line = bs ++ c :: r) : ¬ Blanks (counted line) := by
  obtain ⟨bs, c, r, hb, hc, hk, e⟩ := h
  have hcm : c ∈ line.takeWhile fun c => decide (¬ CommentChar c) := by
    rw [e, List.takeWhile_append_of_pos]
    · rw [List.takeWhile_cons, if_pos (by simpa using hk)]; simp
    · intro d hd
      have := hb d hd
      unfold Blank at this
      unfold CommentChar
      rcases this with rfl | rfl <;> decide
  unfold counted
  simp only
  split
  · split
    · rename_i hx; exact (hc (hx c hcm)).elim
    · exact trimRight_ink fun hn => hc (trimRight_blanks hn c hcm)
  · split
    · intro hx; exact hc (hx c (by rw [e]; simp))
    · rename_i hx; exact trimRight_ink hx

theorem trimRight_rest (s : Str) : ∃ bs, Blanks bs ∧ s = trimRight s ++ bs := by
  have h1 := List.takeWhile_append_dropWhile (p := fun c => decide (Blank c)) (l := s.reverse)
  refine ⟨(s.reverse.takeWhile fun c => decide (Blank c)).reverse, ?_, ?_⟩
  · intro c hc
    exact of_decide_eq_true (mem_takeWhile (P := fun c => decide (Blank c)) (List.mem_reverse.1 hc))
  · unfold trimRight
    rw [← List.reverse_append, h1, List.reverse_reverse]

/-- What is left of a line ends at the end of a word. -/
theorem counted_word {line : Str} {x : Str} {d : Byte} {r : Str} (e : line = x ++ d :: r) (hd : ¬ Blank d) (hk : ¬ CommentChar d)
    (hb : ¬ Blanks x) (hl : ∀ c, x.getLast? = some c → ¬ Blank c) : counted line ≠ x := by
  intro hc
  unfold counted at hc
  simp only at hc
  have trim : ∀ y w, line = y ++ w → (w = [] ∨ ∃ c w', w = c :: w' ∧ CommentChar c) → trimRight y ≠ x := by
    intro y w h1 h2 h3
    obtain ⟨bs, hbs, h4⟩ := trimRight_rest y
    rw [h3] at h4
    rw [e, h4, List.append_assoc] at h1
    have h1 := List.append_cancel_left h1
    cases bs with
    | nil =>
      rcases h2 with rfl | ⟨c, w', rfl, hc⟩
      · cases h1
      · injection h1 with h1 _; subst h1; exact hk hc
    | cons b bs => injection h1 with h1 _; subst h1; exact hd (hbs _ (by simp))
  split at hc
  · rename_i hlen
    rcases takeWhile_cases (fun c => decide (¬ CommentChar c)) line with ⟨h, -⟩ | ⟨a, c, b, h1, h2, h3, -⟩
    · rw [h] at hlen; omega
    · rw [h2] at hc
      split at hc
      · rename_i hbl; rw [hc] at hbl; exact hb hbl
      · exact trim a (c :: b) h1 (.inr ⟨c, b, rfl, by simpa using h3⟩) hc
  · split at hc
    · rw [e] at hc
      have := congrArg List.length hc
      simp at this
    · obtain ⟨bs, hbs, h4⟩ := trimRight_rest (line.reverse.dropWhile fun c => decide (¬ Blank c)).reverse
      rw [hc] at h4
      have h1 := List.takeWhile_append_dropWhile (p := fun c => decide (¬ Blank c)) (l := line.reverse)
      have h2 := congrArg List.reverse h1
      rw [List.reverse_append, List.reverse_reverse, h4, e, List.append_assoc] at h2
      have h2 := List.append_cancel_left h2
      cases bs with
      | cons b bs => injection h2 with h2 _; subst h2; exact hd (hbs _ (by simp))
      | nil =>
        rw [List.append_nil] at h4
        cases hx : line.reverse.dropWhile (fun c => decide (¬ Blank c)) with
        | nil => rw [hx] at h4; rw [← h4] at hb; exact hb (by simp [Blanks])
        | cons c t =>
          have h5 := List.head_dropWhile_not (fun c => decide (¬ Blank c)) (l := line.reverse) (by rw [hx]; simp)
          simp only [hx, List.head_cons, decide_eq_false_iff_not, Decidable.not_not] at h5
          rw [hx] at h4
          exact hl c (by rw [← h4]; simp) h5

/-- In CUDA code a line whose first word has more than one letter is no instruction. -/
theorem cuda_no_instruction {line bs r : Str} {c d : Byte} (e : line = bs ++ c :: d :: r) (hb : Blanks bs) (hc : Letter c) (hd : Letter d)
    (hi : ¬ Contains line b! ".inst") : ¬ Instruction true line := by
  obtain ⟨z, hz⟩ := counted_prefix line
  rintro (⟨u, v, e'⟩ | ⟨-, h⟩)
  · exact hi ⟨u, v ++ z, by rw [← hz, e']; simp⟩
  · simp only [if_true] at h
    obtain ⟨bs', x, hb', hx, e'⟩ := h
    have hxn : ¬ Blank x := by
      rcases hx with hx | rfl | rfl
      · exact (letter_not_blank hx).1
      · unfold Blank; decide
      · unfold Blank; decide
    obtain ⟨h1, h2, -⟩ := split_unique (r' := z) hb hb' (letter_not_blank hc).1 hxn (by rw [← e, ← hz, e']; simp)
    refine counted_word (line := line) (x := bs ++ [c]) (d := d) (r := r) (by rw [e]; simp) (letter_not_blank hd).1 (letter_not_blank hd).2
      (fun hh => (letter_not_blank hc).1 (hh c (by simp))) (fun y hy => ?_) (by rw [e', h1, h2])
    rw [List.getLast?_concat] at hy
    injection hy with hy
    subst hy
    exact (letter_not_blank hc).1

/-- A line that begins with a letter is an instruction if there is no `=`. -/
theorem letter_instruction {line : Str} (h : BeginsWithLetter line) (he : c! '=' ∉ line) : Instruction false line := by
  obtain ⟨bs, c, r, hb, hc, e⟩ := h
  have hcn := letter_not_blank hc
  have hink := counted_ink ⟨bs, c, r, hb, hcn.1, hcn.2, e⟩
  obtain ⟨z, hz⟩ := counted_prefix line
  refine .inr ⟨?_, ?_⟩
  · rintro l ⟨bs1, bs2, d, t, -, -, -, -, -, -, e'⟩
    exact he (by rw [← hz, e']; simp)
  · simp only [Bool.false_eq_true, if_false]
    rcases List.append_eq_append_iff.1 (hz.trans e) with ⟨x, h1, h2⟩ | ⟨x, h1, h2⟩
    · exact (hink fun d hd => hb d (by rw [h1]; simp [hd])).elim
    · cases x with
      | nil => exact (hink fun d hd => hb d (by rw [h1] at hd; simpa using hd)).elim
      | cons y x =>
        have : y = c := by injection h2 with h2 _; exact h2.symm
        subst this
        exact ⟨bs, y, x, hb, hc, h1⟩

/-- A directive without `.inst` is no instruction. -/
theorem directive_no_opcode {line : Str} {code : Bool} (hd : Directive line) (hi : isInstOpcode line = false) : hasOpcode line code = false := by
  rw [Bool.eq_false_iff, ne_eq, hasOpcode_iff]
  obtain ⟨z, hz⟩ := counted_prefix line
  obtain ⟨bs, r, hb, e⟩ := hd
  have dot : ¬ Blank c! '.' := by unfold Blank; decide
  rintro (⟨a, b, e'⟩ | ⟨-, h⟩)
  · have : isInstOpcode line = true := (isInstOpcode_iff line).2 ⟨a, b ++ z, by rw [← hz, e']; simp⟩
    rw [this] at hi; exact absurd hi (by simp)
  · cases code with
    | true =>
      simp only [if_true] at h
      obtain ⟨bs', c, hb', hc, e'⟩ := h
      have hcn : ¬ Blank c := by
        rcases hc with hc | rfl | rfl
        · exact (letter_not_blank hc).1
        · unfold Blank; decide
        · unfold Blank; decide
      have := (split_unique (r' := z) hb hb' dot hcn (by rw [← e, ← hz, e']; simp)).2.1
      subst this
      rcases hc with hc | hc | hc
      · unfold Letter at hc; exact absurd hc (by decide)
      · exact absurd hc (by decide)
      · exact absurd hc (by decide)
    | false =>
      simp only [Bool.false_eq_true, if_false] at h
      obtain ⟨bs', c, r', hb', hc, e'⟩ := h
      have := (split_unique (r' := r' ++ z) hb hb' dot (letter_not_blank hc).1 (by rw [← e, ← hz, e']; simp)).2.1
      subst this
      unfold Letter at hc; exact absurd hc (by decide)

/-! ### Labels -/

theorem labelChar_other {c : Byte} (h : LabelChar c) : ¬ Blank c ∧ c ≠ c! '=' ∧ c ≠ c! ':' := by
  refine ⟨labelChar_not_blank h, ?_, ?_⟩
  all_goals
    rintro rfl
    unfold LabelChar SymbolChar Letter Digit at h
    exact absurd h (by decide)

theorem AssignsOnly.chars {line l : Str} (h : AssignsOnly line l) : c! ':' ∉ line := by
  obtain ⟨bs, bs', c, t, h1, h2, rfl, h3, -, h5, rfl⟩ := h
  have hb : ¬ Blank c! ':' := by unfold Blank; decide
  have hs : ¬ SymbolChar c! ':' := fun h => (labelChar_other (.inl h)).2.2 rfl
  have hc : c ≠ c! ':' := by
    rintro rfl
    rcases h3 with h | h
    · unfold SymbolStart Letter at h; exact absurd h (by decide)
    · exact absurd h (by decide)
  intro hm
  simp only [List.mem_append, List.mem_cons, List.not_mem_nil, or_false] at hm
  rcases hm with ((hm | hm | hm) | hm) | hm
  · exact hb (h1 _ hm)
  · exact hc hm.symm
  · exact hs (h5 _ hm)
  · exact hb (h2 _ hm)
  · exact absurd hm (by decide)

theorem DefinesLabel.colon {line l : Str} (h : DefinesLabel line l) : c! ':' ∈ line := by
  obtain ⟨-, -, ⟨r, rfl⟩ | ⟨x, bs, r, rfl, -, -⟩⟩ := h <;> simp

theorem word_symChar {c : Byte} (h : Letter c ∨ Digit c ∨ c = c! '_') : SymbolChar c := by
  rcases h with h | h | h
  · exact .inl h
  · exact .inr (.inl h)
  · exact .inr (.inr (.inl h))

theorem AssignsLabel.sym {line l : Str} (h : AssignsLabel line l) :
    ∃ b bs r, l ≠ [] ∧ (∀ c ∈ l, LabelChar c) ∧ Blanks (b :: bs) ∧ line = l ++ b :: (bs ++ c! '=' :: r) := by
  obtain ⟨c, t, bs, r, rfl, h1, h2, h3, h4, rfl⟩ := h
  obtain ⟨b, bs, rfl⟩ := List.exists_cons_of_ne_nil h3
  refine ⟨b, bs, r, by simp, ?_, h4, by simp⟩
  intro d hd
  rcases List.mem_cons.1 hd with rfl | hd
  · exact .inl h1
  · exact .inl (word_symChar (h2 d hd))

theorem defines_not_assigns {line l l' : Str} (h : DefinesLabel line l) (h' : Assigns line l') : False := by
  rcases h' with h' | h'
  · obtain ⟨b, bs, r, hne, h2, h3, e⟩ := h'.sym
    have hbl : ∀ c, Blank c → ¬ LabelChar c := fun c hc hl => (labelChar_other hl).1 hc
    have hb : ¬ LabelChar b := hbl b (h3 b (by simp))
    obtain ⟨g1, g2, ⟨r', e'⟩ | ⟨x, bs', r', e', g3, g4⟩⟩ := h
    · have := (span_unique h2 g2 hb (fun h => (labelChar_other h).2.2 rfl) (e.symm.trans e')).2.1
      have hb' := h3 b (by simp)
      rw [this] at hb'
      unfold Blank at hb'; exact absurd hb' (by decide)
    · obtain ⟨c, t, rfl⟩ := List.exists_cons_of_ne_nil hne
      obtain ⟨b', bs', rfl⟩ := List.exists_cons_of_ne_nil g3
      obtain ⟨d, l, rfl⟩ := List.exists_cons_of_ne_nil g1
      have hx : c = x := by rw [e'] at e; exact (List.cons.inj e).1.symm
      subst hx
      have hp : ∀ y ∈ c :: b! "proc", LabelChar y := by
        intro y hy
        rcases List.mem_cons.1 hy with rfl | hy
        · exact h2 y (by simp)
        · refine .inl (.inl ?_)
          simp only [List.mem_cons, List.not_mem_nil, or_false] at hy
          rcases hy with rfl | rfl | rfl | rfl <;> (unfold Letter; decide)
      obtain ⟨-, e1, e2⟩ := span_unique (P := LabelChar) (r' := bs' ++ d :: (l ++ c! ':' :: r')) h2 hp hb (hbl b' (g4 b' (by simp)))
        (by rw [← e, e']; simp)
      have := (split_unique (fun z hz => h3 z (by simp [hz])) (fun z hz => g4 z (by simp [hz])) (by unfold Blank; decide)
        (labelChar_other (g2 d (by simp))).1 e2).2.1
      exact (labelChar_other (g2 d (by simp))).2.1 this.symm
  · exact h'.chars h.colon

theorem AssignsOnly.same {line l l' : Str} (h : AssignsOnly line l) (h' : AssignsLabel line l') : l' = l := by
  obtain ⟨b, bs, r, hne, h2, h3, e⟩ := h'.sym
  obtain ⟨bs1, bs2, c, t, g1, g2, rfl, g3, -, g5, e'⟩ := h
  have hcl : LabelChar c := by
    rcases g3 with (g | g | g) | g
    · exact .inl (.inl g)
    · exact .inl (.inr (.inr (.inl g)))
    · exact .inl (.inr (.inr (.inr (.inl g))))
    · exact .inl (.inr (.inr (.inr (.inr g))))
  obtain ⟨c', t', rfl⟩ := List.exists_cons_of_ne_nil hne
  obtain ⟨rfl, rfl, e2⟩ := split_unique (bs := []) (by simp [Blanks]) g1 (labelChar_other (h2 c' (by simp))).1 (labelChar_other hcl).1
    (r := t' ++ b :: (bs ++ c! '=' :: r)) (r' := t ++ bs2 ++ b! "=") (by rw [e] at e'; simpa using e')
  have hb : ¬ LabelChar b := fun hl => (labelChar_other hl).1 (h3 b (by simp))
  have ht : ∀ d ∈ t', LabelChar d := fun d hd => h2 d (by simp [hd])
  have hs : ∀ d ∈ t, LabelChar d := fun d hd => .inl (g5 d hd)
  cases bs2 with
  | nil =>
    have := (span_unique (x' := c! '=') (r' := []) ht hs hb (fun hl => (labelChar_other hl).2.1 rfl) (by simpa using e2)).1
    rw [this]
  | cons b2 bs2 =>
    have := (span_unique (x' := b2) (r' := bs2 ++ b! "=") ht hs hb (fun hl => (labelChar_other hl).1 (g2 b2 (by simp))) (by simpa using e2)).1
    rw [this]

theorem CudaStart.kind {s k k' : Str} (h : CudaStart s k) (h' : CudaStart s k') : k = k' := by
  obtain ⟨bs, ret, c, t, h1, -, -, -, -, -, e⟩ := h
  obtain ⟨bs', ret', c', t', h1', -, -, -, -, -, e'⟩ := h'
  simp only [List.mem_cons, List.not_mem_nil, or_false] at h1 h1'
  rcases h1 with rfl | rfl <;> rcases h1' with rfl | rfl
  · rfl
  · rw [e] at e'
    exact absurd e' (by simp)
  · rw [e] at e'
    exact absurd e' (by simp)
  · rfl

theorem cuda_lang {p : Nat} {w rest cs} (h : Lang cudaBeginDef p w rest cs) : rest = [] ∧ ∃ k n, CudaStart w k ∧ cs = [(2, n), (1, k)] := by
  obtain ⟨rfl, kind, bs, ret, c, t, g1, g2, g3, g4, g5, g6, rfl, g8⟩ := lang_cudaBeginDef.1 h
  refine ⟨rfl, kind, c :: t, ⟨bs, ret, c, t, g1, g2, blanks_iff.1 g3, ?_, symStartD_iff.1 g5, fun d hd => symChar_iff.1 (g6 d hd), rfl⟩, g8⟩
  rcases g4 with rfl | ⟨x, bs', rfl, hx, hb⟩
  · exact .inl rfl
  · exact .inr ⟨x, bs', rfl, fun d hd => by simpa using hx d hd, blanks_iff.1 hb⟩

theorem CudaStart.lang {w k : Str} (p : Nat) (h : CudaStart w k) : ∃ cs, Lang cudaBeginDef p w [] cs := by
  obtain ⟨bs, ret, c, t, g1, g2, g3, g4, g5, g6, rfl⟩ := h
  refine ⟨_, lang_cudaBeginDef.2 ⟨rfl, k, bs, ret, c, t, g1, g2, blanks_iff.2 g3, ?_, symStartD_iff.2 g5,
    fun d hd => symChar_iff.2 (g6 d hd), rfl, rfl⟩⟩
  rcases g4 with rfl | ⟨x, bs', rfl, hx, hb⟩
  · exact .inl rfl
  · exact .inr ⟨x, bs', rfl, fun d hd => by simpa using hx d hd, blanks_iff.2 hb⟩

theorem getCudaLabel_first {line k : Str} (h : getCudaLabel line = some k) : FirstCuda line k := by
  unfold getCudaLabel at h
  rw [Option.map_eq_some_iff] at h
  obtain ⟨m, hm, hg⟩ := h
  obtain ⟨u, w, rest, h1, h2, h3, h4, h5⟩ := search_mem hm
  obtain ⟨rfl, k', n, g1, g2⟩ := cuda_lang h4
  have : k' = k := by rw [← hg]; unfold Match.get; rw [g2]; rfl
  subst this
  refine ⟨u, w, by rw [h1]; simp, g1, fun a' r' k e hs => ?_⟩
  obtain ⟨cs, hl⟩ := hs.lang a'.length
  exact h5 a' r' [] cs (by rw [e]; simp) hl

theorem FirstCuda.unique {line k k' : Str} (h : FirstCuda line k) (h' : FirstCuda line k') : k = k' := by
  obtain ⟨a, r, e, h1, h2⟩ := h
  obtain ⟨a', r', e', h1', h2'⟩ := h'
  have hl : a.length = a'.length := Nat.le_antisymm (h2 a' r' k' e' h1') (h2' a r k e h1)
  have := (List.append_inj (e.symm.trans e') hl).2
  subst this
  exact h1.kind h1'

theorem getLabelFromLine_places (line l : Str) : (∃ c, getLabelFromLine line = some (l, false, c)) ↔ Places line l := by
  unfold getLabelFromLine
  constructor
  · rintro ⟨c, h⟩
    split at h
    · rename_i l' hl
      cases h
      exact .inl ((getLabel_iff _ _).1 hl)
    · rename_i h0
      split at h
      · cases h
      · rename_i h1
        split at h
        · cases h
        · rename_i h2
          split at h
          · rename_i l' hl
            cases h
            refine .inr ⟨⟨⟨_, getCudaLabel_header hl⟩, fun l => ⟨fun h => ?_, fun h => ?_, fun h => ?_⟩⟩, getCudaLabel_first hl⟩
            · rw [(getLabel_iff _ _).2 h] at h0; cases h0
            · rw [(getLabelAssignment_iff _ _).2 h] at h1; cases h1
            · rw [(getAssignmentDef_iff _ _).2 h] at h2; cases h2
          · cases h
  · rintro (h | ⟨⟨h1, h2⟩, h3⟩)
    · rw [(getLabel_iff _ _).2 h]; exact ⟨_, rfl⟩
    · have e0 : getLabel line = none := by
        cases hg : getLabel line with
        | none => rfl
        | some x => exact absurd ((getLabel_iff _ _).1 hg) (h2 x).1
      have e1 : getLabelAssignment line = none := by
        cases hg : getLabelAssignment line with
        | none => rfl
        | some x => exact absurd ((getLabelAssignment_iff _ _).1 hg) (h2 x).2.1
      have e2 : getAssignmentDef line = none := by
        cases hg : getAssignmentDef line with
        | none => rfl
        | some x => exact absurd ((getAssignmentDef_iff _ _).1 hg) (h2 x).2.2
      have e3 := (getCudaLabel_isSome line).2 h1
      cases hg : getCudaLabel line with
      | none => rw [hg] at e3; cases e3
      | some k =>
        rw [e0, e1, e2, (getCudaLabel_first hg).unique h3]; exact ⟨_, rfl⟩

theorem getLabelFromLine_assigns (line l : Str) : (∃ c, getLabelFromLine line = some (l, true, c)) ↔ Assigns line l := by
  unfold getLabelFromLine
  constructor
  · rintro ⟨c, h⟩
    split at h
    · cases h
    · split at h
      · rename_i l' hl
        cases h
        exact .inl ((getLabelAssignment_iff _ _).1 hl)
      · split at h
        · rename_i l' hl
          cases h
          exact .inr ((getAssignmentDef_iff _ _).1 hl)
        · split at h <;> cases h
  · intro h
    have e0 : getLabel line = none := by
      cases hg : getLabel line with
      | none => rfl
      | some x => exact (defines_not_assigns ((getLabel_iff _ _).1 hg) h).elim
    rw [e0]
    rcases h with h | h
    · rw [(getLabelAssignment_iff _ _).2 h]; exact ⟨_, rfl⟩
    · cases hg : getLabelAssignment line with
      | none => rw [(getAssignmentDef_iff _ _).2 h]; exact ⟨_, rfl⟩
      | some x => rw [h.same ((getLabelAssignment_iff _ _).1 hg)]; exact ⟨_, rfl⟩

/-- The label of a line. -/
theorem label_of_line (line l : Str) : (∃ a c, getLabelFromLine line = some (l, a, c)) ↔ Places line l ∨ Assigns line l := by
  rw [← getLabelFromLine_places, ← getLabelFromLine_assigns]
  constructor
  · rintro ⟨a, c, h⟩
    cases a
    · exact .inl ⟨c, h⟩
    · exact .inr ⟨c, h⟩
  · rintro (⟨c, h⟩ | ⟨c, h⟩) <;> exact ⟨_, c, h⟩

theorem label_unique {line l l' : Str} (h : Places line l ∨ Assigns line l) (h' : Places line l' ∨ Assigns line l') : l = l' := by
  obtain ⟨a, c, h⟩ := (label_of_line _ _).2 h
  obtain ⟨a', c', h'⟩ := (label_of_line _ _).2 h'
  rw [h] at h'; cases h'; rfl

theorem places_not_assigns {line l l' : Str} (h : Places line l) (h' : Assigns line l') : False := by
  obtain ⟨c, h⟩ := (getLabelFromLine_places _ _).2 h
  obtain ⟨c', h'⟩ := (getLabelFromLine_assigns _ _).2 h'
  rw [h] at h'; cases h'

theorem Seen.Defines.unique {t : Seen} {l l' : Str} (h : t.Defines l) (h' : t.Defines l') : l = l' := label_unique h.2.2 h'.2.2

theorem internal_iff (l : Str) : isInternalLabel l = true ↔ Internal l := by
  unfold isInternalLabel Internal startsWith
  cases l with
  | nil => simp
  | cons c r =>
    simp only [Bool.or_eq_true, List.isPrefixOf_iff_prefix, List.cons_prefix_cons, List.nil_prefix, and_true]
    constructor
    · rintro ((h | h) | h)
      · exact ⟨c, r, rfl, .inl h.symm⟩
      · exact ⟨c, r, rfl, .inr (.inl h.symm)⟩
      · exact ⟨c, r, rfl, .inr (.inr h.symm)⟩
    · rintro ⟨c', r', e, h⟩
      cases e
      rcases h with h | h | h
      · exact .inl (.inl h.symm)
      · exact .inl (.inr h.symm)
      · exact .inr h.symm

/-! ### Declarations -/

/-- The first two characters of a directive. -/
def DotThen (line : Str) (x : Byte) : Prop := ∃ bs r, Blanks bs ∧ line = bs ++ c! '.' :: x :: r

theorem DotThen.unique {line : Str} {x y : Byte} (h : DotThen line x) (h' : DotThen line y) : x = y := by
  obtain ⟨bs, r, h1, e⟩ := h
  obtain ⟨bs', r', h1', e'⟩ := h'
  have dot : ¬ Blank c! '.' := by unfold Blank; decide
  exact (List.cons.inj (split_unique h1 h1' dot dot (e.symm.trans e')).2.2).1

theorem DeclaresWeak.dot {line a : Str} (h : DeclaresWeak line a) : DotThen line c! 'w' := by
  have h : DeclaresSymbol [b! ".weakext", b! ".weak"] line a := by
    rcases h with ⟨bs, kw, bs', r, g1, g2, g3⟩ | ⟨⟨bs, kw, bs', r, g1, g2, g3⟩, -⟩
    · exact ⟨bs, kw, bs', r, g1, by simp at g2 ⊢; exact .inl g2, g3⟩
    · exact ⟨bs, kw, bs', r, g1, by simp at g2 ⊢; exact .inr g2, g3⟩
  obtain ⟨bs, kw, bs', r, g1, g2, -, -, -, rfl⟩ := h
  simp only [List.mem_cons, List.not_mem_nil, or_false] at g2
  rcases g2 with rfl | rfl
  · exact ⟨bs, b! "eakext" ++ bs' ++ a ++ r, g1, by simp⟩
  · exact ⟨bs, b! "eak" ++ bs' ++ a ++ r, g1, by simp⟩

theorem global_dot {line a : Str} (h : DeclaresSymbol globalDirectives line a) :
    DotThen line c! 'g' ∨ DotThen line c! 'G' ∨ DotThen line c! 'e' := by
  obtain ⟨bs, kw, bs', r, g1, g2, -, -, -, rfl⟩ := h
  unfold globalDirectives at g2
  simp only [List.mem_cons, List.not_mem_nil, or_false] at g2
  rcases g2 with rfl | rfl | rfl | rfl
  · exact .inl ⟨bs, b! "lobal" ++ bs' ++ a ++ r, g1, by simp⟩
  · exact .inl ⟨bs, b! "lobl" ++ bs' ++ a ++ r, g1, by simp⟩
  · exact .inr (.inl ⟨bs, b! "LB" ++ bs' ++ a ++ r, g1, by simp⟩)
  · exact .inr (.inr ⟨bs, b! "xport" ++ bs' ++ a ++ r, g1, by simp⟩)

theorem weak_not_global {line a b : Str} (h : DeclaresWeak line a) (h' : DeclaresSymbol globalDirectives line b) : False := by
  rcases global_dot h' with g | g | g <;> exact absurd (h.dot.unique g) (by decide)

/-- A symbol declared by a line with source information: none. -/
theorem SourceInfo.kw {line : Str} (h : SourceInfo line) : ∃ kw, kw ∈ [b! ".file", b! ".loc", b! ".stabn", b! ".dbg", b! ".d2line", b! ".d2file"] ∧ Kw line kw := by
  rcases h with ⟨i, n, h⟩ | ⟨i, n, c, h, -⟩ | ⟨k, n, h⟩ | h | ⟨n, h⟩ | ⟨n, h⟩
  · exact ⟨_, by simp, h.kw⟩
  · exact ⟨_, by simp, h.kw⟩
  · exact ⟨_, by simp, h.kw⟩
  · refine ⟨b! ".dbg", by simp, dbg_kw ?_⟩
    have := (get6502_isSome _).2 h
    intro h0; rw [h0] at this; cases this
  · exact ⟨_, by simp, h.kw⟩
  · exact ⟨_, by simp, h.kw⟩

theorem SourceInfo.directive {line : Str} (h : SourceInfo line) : Directive line := by
  obtain ⟨kw, h1, h2⟩ := h.kw
  exact (h2.source h1).directive

theorem SourceInfo.dot {line : Str} (h : SourceInfo line) : DotThen line c! 'f' ∨ DotThen line c! 'l' ∨ DotThen line c! 's' ∨ DotThen line c! 'd' := by
  obtain ⟨kw, h1, arg, ⟨bs, bs', h2, -, -, rfl⟩, -⟩ := h.kw
  simp only [List.mem_cons, List.not_mem_nil, or_false] at h1
  rcases h1 with rfl | rfl | rfl | rfl | rfl | rfl
  · exact .inl ⟨bs, b! "ile" ++ bs' ++ arg, h2, by simp⟩
  · exact .inr (.inl ⟨bs, b! "oc" ++ bs' ++ arg, h2, by simp⟩)
  · exact .inr (.inr (.inl ⟨bs, b! "tabn" ++ bs' ++ arg, h2, by simp⟩))
  · exact .inr (.inr (.inr ⟨bs, b! "bg" ++ bs' ++ arg, h2, by simp⟩))
  · exact .inr (.inr (.inr ⟨bs, b! "2line" ++ bs' ++ arg, h2, by simp⟩))
  · exact .inr (.inr (.inr ⟨bs, b! "2file" ++ bs' ++ arg, h2, by simp⟩))

theorem SourceInfo.not_weak {line a : Str} (h : SourceInfo line) : ¬ DeclaresWeak line a := by
  intro h'
  rcases h.dot with g | g | g | g <;> exact absurd (h'.dot.unique g) (by decide)

theorem SourceInfo.not_global {line a : Str} (h : SourceInfo line) : ¬ DeclaresSymbol globalDirectives line a := by
  intro h'
  rcases h.dot with g | g | g | g <;> rcases global_dot h' with k | k | k <;> exact absurd (g.unique k) (by decide)

end AsmParser
