/-
Helper lemmas: the listing `ladder` (`Verif/Spec/Cost.lean`).
-/
import Verif.Spec.Cost
import Verif.Proofs.TextView
import Verif.Proofs.Cost
import Verif.Proofs.Recognize
import Verif.Proofs.Graph

namespace AsmParser

attribute [local irreducible] Re.search Re.fullMatch

/-! ### Lines of letters, blanks and colons -/

/-- The line has only letters, blanks and colons, and a letter. -/
def Easy (l : Str) : Prop := (∀ c ∈ l, c = 32 ∨ Letter c ∨ c = c! ':') ∧ ∃ c ∈ l, Letter c

theorem Easy.no {l : Str} (h : Easy l) {c : Byte} (hc : ¬ (c = 32 ∨ Letter c ∨ c = c! ':')) : c ∉ l := fun hm => hc (h.1 c hm)

theorem Easy.dot {l : Str} (h : Easy l) : c! '.' ∉ l := h.no (by unfold Letter; decide)

theorem Easy.instructs {l kw arg : Str} (h : Easy l) (hk : c! '.' ∈ kw) : ¬ Instructs l kw arg := by
  rintro ⟨bs, bs', -, -, -, rfl⟩
  exact h.dot (by simp [hk])

theorem Easy.info {l : Str} (h : Easy l) : ¬ SourceInfo l := by
  rintro (⟨_, _, _, _, _, _, _, -, -, -, -, -, h1, -⟩ | ⟨_, _, _, ⟨_, _, _, _, -, -, -, -, -, -, h1, -⟩, -⟩ | ⟨_, _, _, _, _, -, -, -, -, h1⟩ |
    ⟨_, h1⟩ | ⟨_, _, _, -, -, h1⟩ | ⟨_, h1⟩) <;> exact h.instructs (by decide) h1

theorem Easy.ends {l : Str} (h : Easy l) : ¬ EndsBlock l := by
  rintro ⟨w, hw, a, b, rfl⟩
  refine h.dot ?_
  simp only [List.mem_cons, List.not_mem_nil, or_false] at hw
  rcases hw with rfl | rfl | rfl | rfl <;> simp

theorem Easy.cuda {l : Str} (h : Easy l) : ¬ StartsCuda l := by
  rintro ⟨⟨_, a, bs, ret, c, t, -, -, -, -, -, -, rfl⟩, -⟩
  exact h.dot (by simp)

theorem Easy.directive {l : Str} (h : Easy l) : ¬ Directive l := by
  rintro ⟨bs, r, -, rfl⟩
  exact h.dot (by simp)

theorem Easy.assigns {l a : Str} (h : Easy l) : ¬ Assigns l a := by
  have he : c! '=' ∉ l := h.no (by unfold Letter; decide)
  rintro (⟨c, t, bs, r, rfl, -, -, -, -, rfl⟩ | ⟨bs, bs', c, t, -, -, rfl, -, -, -, rfl⟩) <;> exact he (by simp)

theorem padTabs_free (l : Str) (h : 9 ∉ l) (k : Nat) : padTabs k l = l := by
  induction l generalizing k with
  | nil => rfl
  | cons c l ih =>
    simp only [List.mem_cons, not_or] at h
    unfold padTabs
    rw [if_neg (fun e => h.1 (by simpa using e.symm)), ih h.2]

theorem Easy.clean {l : Str} (h : Easy l) : cleaned {} l = l := by
  unfold cleaned
  rw [if_neg (by simp), expandTabs_eq]
  exact padTabs_free l (h.no (by unfold Letter; decide)) 0

theorem Easy.words {l : Str} {ws : List Str} (h : Easy l) (hw : ∀ w ∈ ws, c! '#' ∈ w) : startsWithWord ws l = false := by
  unfold startsWithWord
  rw [List.any_eq_false]
  intro w hm hp
  obtain ⟨r, e⟩ := List.isPrefixOf_iff_prefix.1 hp
  have : c! '#' ∈ l.dropWhile fun c => c = 32 || c = 9 := by rw [← e]; exact List.mem_append_left _ (hw w hm)
  exact h.no (c := c! '#') (by unfold Letter; decide) ((List.dropWhile_sublist _).mem this)

section
variable [Recognizers]

theorem Easy.line {l : Str} (h : Easy l) (s : Scan) (h1 : s.nest = 0) (h2 : s.carry = []) (h3 : s.code = false) (h4 : s.params = false) :
    ∃ s', Scan.line {} s l = s' ∧ s'.nest = 0 ∧ s'.carry = [] ∧ s'.code = false ∧ s'.params = false ∧
      s'.texts = s.texts ++ [{ text := l }] := by
  refine ⟨_, rfl, ?_⟩
  have hb : (l.all fun c => c = 32 || c = 9) = false := by
    obtain ⟨c, hc, hl⟩ := h.2
    rw [List.all_eq_false]
    refine ⟨c, hc, ?_⟩
    simp only [Bool.or_eq_true, decide_eq_true_eq]
    rintro (rfl | rfl) <;> revert hl <;> unfold Letter <;> decide
  unfold Scan.line
  simp only [h2, List.nil_append, Bool.false_and, Bool.false_eq_true, if_false, hb,
    h.words (ws := [b! "#APP", b! "# Begin ASM"]) (by decide), h.words (ws := [b! "#NO_APP", b! "# End ASM"]) (by decide), h1]
  simp only [gt_iff_lt, Int.lt_irrefl, if_false, h.clean]
  unfold Scan.see
  have hends : ¬ ({ text := l, code := s.code, skipped := false, params := s.params, inline := false } : Seen).Ends := by
    rintro (h' | ⟨h', -⟩)
    · exact h.ends h'
    · rw [h3] at h'; cases h'
  simp [h3, h4, h.cuda]

theorem easy_seen (ls : List Str) (h : ∀ l ∈ ls, Easy l) : seen {} (unlines ls) = ls.map fun l => { text := l } := by
  have key : ∀ (ls : List Str) (s : Scan), (∀ l ∈ ls, Easy l) → s.nest = 0 → s.carry = [] → s.code = false → s.params = false →
      (ls.foldl (Scan.line {}) s).texts = s.texts ++ ls.map fun l => { text := l } := by
    intro ls
    induction ls with
    | nil => intro s _ _ _ _ _; simp
    | cons l ls ih =>
      intro s h h1 h2 h3 h4
      obtain ⟨s', e, g1, g2, g3, g4, g5⟩ := (h l (by simp)).line s h1 h2 h3 h4
      rw [List.foldl_cons, e, ih s' (fun l hl => h l (by simp [hl])) g1 g2 g3 g4, g5]
      simp
  unfold seen scan
  rw [inputLines_unlines ls fun l hl => (h l hl).no (by unfold Letter; decide), key ls {} h rfl rfl rfl rfl]
  rfl

end

/-! ### What such a line is -/

theorem Easy.defines {l a : Str} (h : Easy l) : ({ text := l } : Seen).Defines a ↔ DefinesLabel l a := by
  constructor
  · rintro ⟨-, -, (h1 | ⟨h1, -⟩) | h1⟩
    · exact h1
    · exact absurd h1 h.cuda
    · exact absurd h1 h.assigns
  · exact fun h1 => ⟨rfl, fun h2 => h.info h2.2, .inl (.inl h1)⟩

theorem Easy.declares {l a : Str} (h : Easy l) : ¬ ({ text := l } : Seen).Declares a := by
  rintro (⟨-, -, h1, -⟩ | ⟨-, -, h1, -⟩) <;> exact h.directive h1.1

theorem Easy.data {l : Str} (h : Easy l) : ¬ ({ text := l } : Seen).Data := by
  rintro ⟨-, -, bs, kw, r, -, hk, rfl⟩
  refine h.dot ?_
  have : ∀ kw ∈ dataDirectives, c! '.' ∈ kw := by decide +kernel
  simp [this kw hk]

/-- A name of letters. -/
def Word (a : Str) : Prop := a ≠ [] ∧ ∀ c ∈ a, Letter c

theorem Word.head {a : Str} (h : Word a) : ∃ c r, a = c :: r ∧ Letter c := by
  cases a with
  | nil => exact absurd rfl h.1
  | cons c r => exact ⟨c, r, rfl, h.2 c (by simp)⟩

theorem Word.easy {a : Str} (h : Word a) : Easy (a ++ b! ":") := by
  obtain ⟨c, r, e, hc⟩ := h.head
  refine ⟨fun d hd => ?_, c, by simp [e], hc⟩
  rcases List.mem_append.1 hd with hd | hd
  · exact .inr (.inl (h.2 d hd))
  · exact .inr (.inr (by simpa using hd))

theorem Word.easy_call {a : Str} (h : Word a) : Easy (b! " call " ++ a) := by
  obtain ⟨c, r, e, hc⟩ := h.head
  refine ⟨fun d hd => ?_, c, by simp [e], hc⟩
  rcases List.mem_append.1 hd with hd | hd
  · have : ∀ d ∈ b! " call ", d = 32 ∨ Letter d ∨ d = c! ':' := by unfold Letter; decide
    exact this d hd
  · exact .inr (.inl (h.2 d hd))

theorem Word.defines {a b : Str} (h : Word a) : ({ text := a ++ b! ":" } : Seen).Defines b ↔ b = a := by
  rw [h.easy.defines]
  have ha : DefinesLabel (a ++ b! ":") a := ⟨h.1, fun c hc => .inl (.inl (h.2 c hc)), .inl ⟨[], rfl⟩⟩
  exact ⟨fun h1 => (h.easy.defines.2 h1).unique (h.easy.defines.2 ha), fun e => e ▸ ha⟩

theorem noColon_defines {l a : Str} (h : Easy l) (hc : c! ':' ∉ l) : ¬ ({ text := l } : Seen).Defines a := by
  rw [h.defines]
  rintro ⟨-, -, ⟨r, rfl⟩ | ⟨x, bs, r, rfl, -, -⟩⟩ <;> exact hc (by simp)

theorem Word.colon {a : Str} (h : Word a) : c! ':' ∉ b! " call " ++ a := by
  intro hm
  rcases List.mem_append.1 hm with hm | hm
  · revert hm; decide
  · have := h.2 _ hm
    revert this
    unfold Letter; decide

theorem dropWhile_all {p : Byte → Bool} {a b : Str} (h : ∀ c ∈ a, p c = true) : (a ++ b).dropWhile p = b.dropWhile p := by
  induction a with
  | nil => rfl
  | cons c a ih =>
    rw [List.cons_append, List.dropWhile_cons, if_pos (h c (by simp)), ih fun d hd => h d (by simp [hd])]

theorem letter_blank {c : Byte} (h : Letter c) : ¬ Blank c := by
  rintro (rfl | rfl) <;> revert h <;> unfold Letter <;> decide

theorem Easy.code {l : Str} (h : Easy l) : codePart l = l := by
  have : ∀ l : Str, c! ';' ∉ l → c! '#' ∉ l → codePart l = l := by
    intro l
    induction l with
    | nil => intro _ _; rfl
    | cons c l ih =>
      intro h1 h2
      simp only [List.mem_cons, not_or] at h1 h2
      unfold codePart
      rw [if_neg (fun e => e.1.elim (fun e => h1.1 e.symm) fun e => h2.1 e.symm), ih h1.2 h2.2]
  exact this l (h.no (by unfold Letter; decide)) (h.no (by unfold Letter; decide))

theorem nameWords_letters (a : Str) (h : ∀ c ∈ a, Letter c) (sg cur : Str) (hc : cur ≠ []) : nameWords sg cur a = [(sg, cur ++ a)] := by
  induction a generalizing cur with
  | nil => unfold nameWords; rw [if_neg hc, List.append_nil]
  | cons c a ih =>
    have hw : inWord c = true := by
      have := h c (by simp)
      simp only [Letter] at this
      simp only [inWord, Bool.or_eq_true, Bool.and_eq_true, decide_eq_true_eq]
      rcases this with h | h
      · exact .inl (.inl (.inl (.inl h)))
      · exact .inl (.inl (.inl (.inr h)))
    unfold nameWords
    rw [if_pos ⟨hc, hw⟩, ih (fun d hd => h d (by simp [hd])) _ (by simp)]
    simp

theorem Word.mentions {a : Str} (h : Word a) : a ∈ mentioned (b! " call " ++ a) := by
  unfold mentioned
  rw [h.easy_call.code]
  have hop : operandPart (b! " call " ++ a) = c! ' ' :: a := by
    unfold operandPart
    have e : (b! " call " ++ a).dropWhile (fun c => ¬ ((97 ≤ c ∧ c ≤ 122) ∨ (65 ≤ c ∧ c ≤ 90))) = b! "call " ++ a := by
      simp
    rw [e]
    have e2 : (b! "call " ++ a).dropWhile (fun c => decide ¬ Blank c) = c! ' ' :: a := by
      show (b! "call" ++ (c! ' ' :: a)).dropWhile _ = _
      rw [dropWhile_all (by unfold Blank; decide), List.dropWhile_cons, if_neg (by unfold Blank; decide)]
    simp only [e2]
    rw [if_neg (by simp)]
  rw [hop]
  have hq : c! '"' ∉ c! ' ' :: a := by
    intro hm
    rcases List.mem_cons.1 hm with hm | hm
    · cases hm
    · have := h.2 _ hm
      revert this
      unfold Letter; decide
  simp only [if_neg hq]
  obtain ⟨c, r, rfl, hc⟩ := h.head
  have hs : startsWord c = true := by
    simp only [Letter] at hc
    simp only [startsWord, Bool.or_eq_true, Bool.and_eq_true, decide_eq_true_eq]
    rcases hc with h | h
    · exact .inl (.inl (.inl (.inl h)))
    · exact .inl (.inl (.inl (.inr h)))
  have : nameWords [] [] (c! ' ' :: c :: r) = [([], c :: r)] := by
    have h1 : nameWords [] [] (c! ' ' :: c :: r) = nameWords [] [] (c :: r) := by
      rw [nameWords]
      simp [startsWord, isSigil]
    rw [h1, nameWords]
    simp only [ne_eq, not_true_eq_false, false_and, if_false, if_true, List.nil_append, hs]
    exact nameWords_letters r (fun d hd => h.2 d (by simp [hd])) [] [c] (by simp)
  rw [this]
  simp

theorem Word.instr {a : Str} (h : Word a) : ({ text := b! " call " ++ a } : Seen).Instr := by
  refine ⟨⟨rfl, fun l => noColon_defines h.easy_call h.colon⟩, .inr ?_⟩
  have hcnt : counted (b! " call " ++ a) = b! " call" := by
    unfold counted
    have e1 : (b! " call " ++ a).takeWhile (fun c => decide ¬ CommentChar c) = b! " call " ++ a := by
      refine takeWhile_all fun c hc => ?_
      simp only [decide_eq_true_eq]
      rintro (rfl | rfl)
      · exact h.easy_call.no (by unfold Letter; decide) hc
      · exact h.easy_call.no (by unfold Letter; decide) hc
    have e2 : (b! " call " ++ a).reverse.dropWhile (fun c => decide ¬ Blank c) = (b! " call ").reverse := by
      rw [List.reverse_append, dropWhile_all]
      · decide
      · intro c hc
        simpa using letter_blank (h.2 c (by simpa using hc))
    simp only [e1, e2, Nat.lt_irrefl, if_false]
    rw [if_neg (by decide)]
    decide
  show (∀ l, ¬ AssignsOnly (counted (b! " call " ++ a)) l) ∧ (if false = true then _ else BeginsWithLetter (counted (b! " call " ++ a)))
  rw [hcnt]
  refine ⟨fun l => ?_, b! " ", c! 'c', b! "all", by unfold Blanks Blank; decide, by unfold Letter; decide, rfl⟩
  rintro ⟨bs, bs', c, t, -, -, -, -, -, -, e⟩
  have : c! '=' ∈ b! " call" := by rw [e]; simp
  revert this; decide

theorem Word.internal {a : Str} (h : Word a) (hL : ∀ c ∈ a.head?, c ≠ c! 'L') : ¬ Internal a := by
  rintro ⟨c, r, rfl, hc⟩
  have h1 := h.2 c (by simp)
  rcases hc with rfl | rfl | rfl
  · revert h1; unfold Letter; decide
  · revert h1; unfold Letter; decide
  · exact hL _ (by simp) rfl

/-! ### The listing -/

theorem nameA_word (i : Nat) : Word (nameA i) := by
  refine ⟨by simp [nameA], fun c hc => ?_⟩
  rcases List.mem_cons.1 hc with rfl | hc
  · unfold Letter; decide
  · rw [List.eq_of_mem_replicate hc]; unfold Letter; decide

theorem nameB_word (i : Nat) : Word (nameB i) := by
  refine ⟨by simp [nameB], fun c hc => ?_⟩
  rcases List.mem_cons.1 hc with rfl | hc
  · unfold Letter; decide
  · rw [List.eq_of_mem_replicate hc]; unfold Letter; decide

theorem callsBoth_easy {f a b : Str} (hf : Word f) (ha : Word a) (hb : Word b) : ∀ l ∈ callsBoth f a b, Easy l := by
  intro l hl
  simp only [callsBoth, List.mem_cons, List.not_mem_nil, or_false] at hl
  rcases hl with rfl | rfl | rfl
  · exact hf.easy
  · exact ha.easy_call
  · exact hb.easy_call

theorem ret_easy : Easy b! " ret" := ⟨by unfold Letter; decide, c! 'r', by decide, by unfold Letter; decide⟩

theorem ladder_easy (n : Nat) : ∀ l ∈ ladder n, Easy l := by
  induction n with
  | zero =>
    intro l hl
    simp only [ladder, List.mem_cons, List.not_mem_nil, or_false] at hl
    rcases hl with rfl | rfl | rfl | rfl
    · exact (nameA_word 0).easy
    · exact ret_easy
    · exact (nameB_word 0).easy
    · exact ret_easy
  | succ n ih =>
    intro l hl
    simp only [ladder, List.mem_append] at hl
    rcases hl with (hl | hl) | hl
    · exact ih l hl
    · exact callsBoth_easy (nameA_word _) (nameA_word _) (nameB_word _) l hl
    · exact callsBoth_easy (nameB_word _) (nameA_word _) (nameB_word _) l hl

theorem ladder_first (n : Nat) : ∃ r, ladder n = (nameA 0 ++ b! ":") :: r := by
  induction n with
  | zero => exact ⟨_, rfl⟩
  | succ n ih =>
    obtain ⟨r, e⟩ := ih
    exact ⟨_, by rw [ladder, e]; rfl⟩

theorem ladder_part {i n : Nat} (h : i ≤ n) : ∃ r, ladder n = ladder i ++ r := by
  induction n with
  | zero => exact ⟨[], by rw [Nat.le_zero.1 h, List.append_nil]⟩
  | succ n ih =>
    by_cases e : i = n + 1
    · exact ⟨[], by rw [e, List.append_nil]⟩
    · obtain ⟨r, e⟩ := ih (by omega)
      exact ⟨_, by rw [ladder, e, List.append_assoc, List.append_assoc]⟩

theorem ladder_length (n : Nat) : (unlines (ladder n)).length ≤ (6 * n + 4) * (n + 8) := by
  have hb : ∀ (ls : List Str) (m : Nat), (∀ l ∈ ls, l.length + 1 ≤ m) → (unlines ls).length ≤ ls.length * m := by
    intro ls m
    induction ls with
    | nil => simp [unlines]
    | cons l ls ih =>
      intro h
      have h1 := ih fun l hl => h l (by simp [hl])
      have h2 := h l (by simp)
      have e : unlines (l :: ls) = l ++ (10 :: unlines ls) := by simp [unlines]
      rw [e, List.length_append, List.length_cons, List.length_cons, Nat.add_mul]
      omega
  have hl : ∀ n, (ladder n).length = 6 * n + 4 := by
    intro n
    induction n with
    | zero => rfl
    | succ n ih => simp only [ladder, List.length_append, ih, callsBoth, List.length_cons, List.length_nil]; omega
  have hm : ∀ n, ∀ l ∈ ladder n, l.length + 1 ≤ n + 8 := by
    intro n
    induction n with
    | zero => decide
    | succ n ih =>
      intro l hl
      simp only [ladder, callsBoth, List.mem_append, List.mem_cons, List.not_mem_nil, or_false] at hl
      rcases hl with (hl | hl | hl | hl) | hl | hl | hl
      · have := ih l hl; omega
      all_goals subst hl; simp [nameA, nameB]; try omega
  have := hb (ladder n) (n + 8) (hm n)
  rwa [hl] at this

/-- The lines as they are seen. -/
def seenLines (ls : List Str) : List Seen := ls.map fun l => { text := l }

theorem mem_seenLines {ls : List Str} (h : ∀ l ∈ ls, Easy l) {t : Seen} (ht : t ∈ seenLines ls) : ∃ l, Easy l ∧ t = { text := l } := by
  obtain ⟨l, hl, rfl⟩ := List.mem_map.1 ht
  exact ⟨l, h l hl, rfl⟩

theorem easy_function {ls : List Str} (h : ∀ l ∈ ls, Easy l) {a : Str} (ha : Word a) (hi : ¬ Internal a) {r : List Str}
    (e : ls = (a ++ b! ":") :: r) {l : Str} {ts : List Seen} (hf : FunctionAt ts l) (hp : ts <+: seenLines ls) (hne : ts ≠ []) : l ≠ [] := by
  induction hf with
  | start => exact absurd rfl hne
  | @label ts t l hd _ =>
    obtain ⟨x, hx, rfl⟩ := mem_seenLines h (hp.subset (show t ∈ ts ++ [t] by simp))
    exact (hx.defines.1 hd).1
  | @keep ts t l hd _ ih =>
    by_cases hts : ts = []
    · subst hts
      rw [e] at hp
      obtain ⟨z, hz⟩ := hp
      have : t = { text := a ++ b! ":" } := (List.cons.inj hz).1
      exact absurd (hd a (by rw [this]; exact ha.defines.2 rfl)) hi
    · exact ih ((List.prefix_append ts [t]).trans hp) hts

theorem easy_noReason {ls : List Str} (h : ∀ l ∈ ls, Easy l) {a : Str} (ha : Word a) (hi : ¬ Internal a) {r : List Str}
    (e : ls = (a ++ b! ":") :: r) : NoReason (seenLines ls) where
  data x y _ := by
    rintro ⟨before, t, after, e, h1, -⟩
    obtain ⟨l, hl, rfl⟩ := mem_seenLines h (show t ∈ seenLines ls by rw [e]; simp)
    exact hl.data h1
  exported x _ := by
    rintro ⟨t, ht, h1⟩
    obtain ⟨l, hl, rfl⟩ := mem_seenLines h ht
    exact hl.declares (.inl h1)
  outside x _ := by
    rintro ⟨before, t, after, e', ⟨h1, -, h2, -⟩ | ⟨h1, -⟩⟩
    · by_cases hb : before = []
      · subst hb
        rw [e] at e'
        have : t = { text := a ++ b! ":" } := (List.cons.inj e').1.symm
        exact h1.1.2 a (by rw [this]; exact ha.defines.2 rfl)
      · exact easy_function h ha hi e h2 ⟨t :: after, e'.symm⟩ hb rfl
    · obtain ⟨l, hl, rfl⟩ := mem_seenLines h (show t ∈ seenLines ls by rw [e']; simp)
      exact hl.declares h1

theorem nameA_internal (i : Nat) : ¬ Internal (nameA i) := (nameA_word i).internal (by simp [nameA])
theorem nameB_internal (i : Nat) : ¬ Internal (nameB i) := (nameB_word i).internal (by simp [nameB])

theorem ladder_noReason (n : Nat) : NoReason (seenLines (ladder n)) := by
  obtain ⟨r, e⟩ := ladder_first n
  exact easy_noReason (ladder_easy n) (nameA_word 0) (nameA_internal 0) e

theorem FunctionAt.call {ts : List Seen} {f a : Str} (h : FunctionAt ts f) (ha : Word a) :
    FunctionAt (ts ++ [{ text := b! " call " ++ a }]) f :=
  .keep (fun _ hl => absurd hl (noColon_defines ha.easy_call ha.colon)) h

theorem callsBoth_use {pre post : List Str} {f a b : Str} (hf : Word f) (hi : ¬ Internal f) (ha : Word a) (hb : Word b) :
    (a ≠ f → CodeUse (seenLines (pre ++ callsBoth f a b ++ post)) a f) ∧ (b ≠ f → CodeUse (seenLines (pre ++ callsBoth f a b ++ post)) b f) := by
  have h0 : FunctionAt (seenLines pre ++ [{ text := f ++ b! ":" }]) f := .label (hf.defines.2 rfl) hi
  refine ⟨fun hne => ⟨seenLines pre ++ [{ text := f ++ b! ":" }], { text := b! " call " ++ a }, { text := b! " call " ++ b } :: seenLines post, ?_,
    .inl ⟨ha.instr, ha.mentions, h0, hne⟩⟩, fun hne => ⟨seenLines pre ++ [{ text := f ++ b! ":" }] ++ [{ text := b! " call " ++ a }],
      { text := b! " call " ++ b }, seenLines post, ?_, .inl ⟨hb.instr, hb.mentions, h0.call ha, hne⟩⟩⟩ <;> simp [seenLines, callsBoth]

theorem callsBoth_defined {pre post : List Str} {f a b : Str} (hf : Word f) : Defined (seenLines (pre ++ callsBoth f a b ++ post)) f :=
  ⟨{ text := f ++ b! ":" }, by simp [seenLines, callsBoth], hf.defines.2 rfl⟩

/-- One of the two names with this number. -/
def Pair (i : Nat) (x : Str) : Prop := x = nameA i ∨ x = nameB i

theorem Pair.length {i : Nat} {x : Str} (h : Pair i x) : x.length = i + 1 := by
  rcases h with rfl | rfl <;> simp [nameA, nameB]

theorem ladder_defined {i n : Nat} (h : i ≤ n) {x : Str} (hx : Pair i x) : Defined (seenLines (ladder n)) x := by
  obtain ⟨r, e⟩ := ladder_part h
  rw [e]
  cases i with
  | zero =>
    rcases hx with rfl | rfl
    · exact ⟨{ text := nameA 0 ++ b! ":" }, by simp [seenLines, ladder], (nameA_word 0).defines.2 rfl⟩
    · exact ⟨{ text := nameB 0 ++ b! ":" }, by simp [seenLines, ladder], (nameB_word 0).defines.2 rfl⟩
  | succ i =>
    rcases hx with rfl | rfl
    · rw [ladder, List.append_assoc]
      exact callsBoth_defined (nameA_word _)
    · rw [ladder]
      exact callsBoth_defined (nameB_word _)

theorem ladder_use {i n : Nat} (h : i + 1 ≤ n) {x y : Str} (hx : Pair i x) (hy : Pair (i + 1) y) : CodeUse (seenLines (ladder n)) x y := by
  have hne : x ≠ y := by
    intro e
    have h1 := hx.length
    have h2 := hy.length
    rw [e] at h1
    omega
  obtain ⟨r, e⟩ := ladder_part h
  rw [e, ladder]
  rcases hy with rfl | rfl
  · rw [List.append_assoc]
    rcases hx with rfl | rfl
    · exact (callsBoth_use (nameA_word _) (nameA_internal _) (nameA_word _) (nameB_word _)).1 hne
    · exact (callsBoth_use (nameA_word _) (nameA_internal _) (nameA_word _) (nameB_word _)).2 hne
  · rcases hx with rfl | rfl
    · exact (callsBoth_use (nameB_word _) (nameB_internal _) (nameA_word _) (nameB_word _)).1 hne
    · exact (callsBoth_use (nameB_word _) (nameB_internal _) (nameA_word _) (nameB_word _)).2 hne

/-- The chains from the pair `i` to the pair `i + k`. -/
def climbs : Nat → Nat → List (List Str)
  | i, 0 => [[nameA i], [nameB i]]
  | i, k + 1 => (climbs (i + 1) k).map (nameA i :: ·) ++ (climbs (i + 1) k).map (nameB i :: ·)

theorem climbs_length (i k : Nat) : (climbs i k).length = 2 ^ (k + 1) := by
  induction k generalizing i with
  | zero => rfl
  | succ k ih => simp only [climbs, List.length_append, List.length_map, ih]; rw [Nat.pow_succ 2 (k + 1)]; omega

theorem mem_climbs {i k : Nat} {c : List Str} (h : c ∈ climbs i (k + 1)) : ∃ x c', c = x :: c' ∧ Pair i x ∧ c' ∈ climbs (i + 1) k := by
  simp only [climbs, List.mem_append, List.mem_map] at h
  rcases h with ⟨c', h, rfl⟩ | ⟨c', h, rfl⟩
  · exact ⟨_, c', rfl, .inl rfl, h⟩
  · exact ⟨_, c', rfl, .inr rfl, h⟩

theorem names_ne (i : Nat) : nameA i ≠ nameB i := by
  intro e
  exact absurd (List.cons.inj e).1 (by decide)

theorem climbs_nodup (i k : Nat) : (climbs i k).Nodup := by
  induction k generalizing i with
  | zero =>
    simp only [climbs, List.nodup_cons, List.mem_singleton, List.cons.injEq, and_true, List.not_mem_nil, not_false_eq_true, List.nodup_nil]
    exact names_ne i
  | succ k ih =>
    simp only [climbs]
    rw [List.nodup_append]
    refine ⟨nodup_map_on (fun x _ y _ e => (List.cons.inj e).2) (ih _), nodup_map_on (fun x _ y _ e => (List.cons.inj e).2) (ih _), fun x hx y hy e => ?_⟩
    obtain ⟨x', -, rfl⟩ := List.mem_map.1 hx
    obtain ⟨y', -, rfl⟩ := List.mem_map.1 hy
    exact names_ne i (List.cons.inj e).1

theorem climbs_long {i k : Nat} {c : List Str} (h : c ∈ climbs i k) : ∀ x ∈ c, i + 1 ≤ x.length := by
  induction k generalizing i c with
  | zero =>
    intro x hx
    simp only [climbs, List.mem_cons, List.not_mem_nil, or_false] at h
    rcases h with rfl | rfl <;> rw [List.mem_singleton.1 hx] <;> simp [nameA, nameB]
  | succ k ih =>
    obtain ⟨y, c', rfl, hy, hc⟩ := mem_climbs h
    intro x hx
    rcases List.mem_cons.1 hx with rfl | hx
    · rw [hy.length]; exact Nat.le_refl _
    · have := ih hc x hx
      omega

theorem climbs_head {i k : Nat} {c : List Str} (h : c ∈ climbs i k) : ∃ x c', c = x :: c' ∧ Pair i x := by
  cases k with
  | zero =>
    simp only [climbs, List.mem_cons, List.not_mem_nil, or_false] at h
    rcases h with rfl | rfl
    · exact ⟨_, _, rfl, .inl rfl⟩
    · exact ⟨_, _, rfl, .inr rfl⟩
  | succ k =>
    obtain ⟨x, c', e, hx, -⟩ := mem_climbs h
    exact ⟨x, c', e, hx⟩

theorem climbs_trail {i k n : Nat} (hn : i + k ≤ n) {c : List Str} (h : c ∈ climbs i k) : Trail (seenLines (ladder n)) c ∧ c.length = k + 1 := by
  induction k generalizing i c with
  | zero =>
    simp only [climbs, List.mem_cons, List.not_mem_nil, or_false] at h
    rcases h with rfl | rfl
    · exact ⟨.one (ladder_defined (by omega) (.inl rfl)), rfl⟩
    · exact ⟨.one (ladder_defined (by omega) (.inr rfl)), rfl⟩
  | succ k ih =>
    obtain ⟨x, c', rfl, hx, hc⟩ := mem_climbs h
    obtain ⟨g1, g2⟩ := ih (by omega) hc
    have hlong := climbs_long hc
    obtain ⟨y, c'', rfl, hy⟩ := climbs_head hc
    refine ⟨.step (ladder_defined (by omega) hx) (ladder_use (by omega) hx hy) (fun hm => ?_) g1, by simp [g2]⟩
    have := hlong x hm
    rw [hx.length] at this
    omega

end AsmParser
