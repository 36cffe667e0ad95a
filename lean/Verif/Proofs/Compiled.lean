/-
Helper lemmas: reading the assembly code that a compiler writes.
-/
import Verif.Spec.Compiled
import Verif.Proofs.Held
import Verif.Proofs.Compat
import Verif.Proofs.RespMore
import Verif.Proofs.JsonSize
import Verif.Props.Lines
import Verif.Props.Sources

namespace AsmParser

attribute [local irreducible] Re.search Re.fullMatch

/-! ### The words of a line -/

def blankB (c : Byte) : Bool := decide (Blank c)

def cWord (t : Str) : Str := (t.dropWhile blankB).takeWhile fun c => !blankB c

def cArgs (t : Str) : Str := ((t.dropWhile blankB).dropWhile fun c => !blankB c).dropWhile blankB

theorem dropWhile_blanks_c {bs r : Str} (h : Blanks bs) (hr : ∀ c ∈ r.head?, ¬ Blank c) : (bs ++ r).dropWhile blankB = r := by
  induction bs with
  | nil =>
    cases r with
    | nil => rfl
    | cons c r => simp [blankB, hr c (by simp)]
  | cons b bs ih =>
    rw [List.cons_append, List.dropWhile_cons_of_pos (by simpa [blankB] using h b (by simp))]
    exact ih fun c hc => h c (by simp [hc])

theorem span_word {kw r : Str} (h : ∀ c ∈ kw, ¬ Blank c) (hr : ∀ c ∈ r.head?, Blank c) :
    (kw ++ r).takeWhile (fun c => !blankB c) = kw ∧ (kw ++ r).dropWhile (fun c => !blankB c) = r := by
  induction kw with
  | nil =>
    cases r with
    | nil => exact ⟨rfl, rfl⟩
    | cons c r => simp [blankB, hr c (by simp)]
  | cons b bs ih =>
    have hb := h b (by simp)
    obtain ⟨i1, i2⟩ := ih fun c hc => h c (by simp [hc])
    rw [List.cons_append, List.takeWhile_cons_of_pos (by simpa [blankB] using hb), List.dropWhile_cons_of_pos (by simpa [blankB] using hb), i1, i2]
    exact ⟨rfl, rfl⟩

theorem head_of_blanks {bs r : Str} (h : Blanks bs) (hn : bs = [] → r = []) : ∀ c ∈ (bs ++ r).head?, Blank c := by
  cases bs with
  | nil => rw [hn rfl]; intro c hc; cases hc
  | cons b bs => intro c hc; cases hc; exact h _ (by simp)

/-- The line is `kw`, indented, and then the arguments. -/
structure Shape (t kw args : Str) : Prop where
  form : ∃ bs bs', t = bs ++ kw ++ bs' ++ args ∧ Blanks bs ∧ Blanks bs' ∧ (bs' = [] → args = [])
  word : KwWord kw
  head : ∀ c ∈ args.head?, ¬ Blank c

theorem Shape.words {t kw args : Str} (h : Shape t kw args) : cWord t = kw ∧ cArgs t = args := by
  obtain ⟨⟨bs, bs', rfl, h1, h2, h3⟩, h4, h5⟩ := h
  have e : bs ++ kw ++ bs' ++ args = bs ++ (kw ++ (bs' ++ args)) := by simp
  obtain ⟨w1, w2⟩ := span_word (r := bs' ++ args) h4.2 (head_of_blanks h2 h3)
  unfold cWord cArgs
  rw [e, dropWhile_blanks_c h1 h4.head, w1, w2, dropWhile_blanks_c h2 h5]
  exact ⟨rfl, rfl⟩

theorem Instructs.words {t kw arg : Str} (h : Instructs t kw arg) (hk : KwWord kw) (ha : ∀ c ∈ arg.head?, ¬ Blank c) :
    cWord t = kw ∧ cArgs t = arg := by
  obtain ⟨bs, bs', h1, h2, h3, h4⟩ := h
  exact Shape.words ⟨⟨bs, bs', h4, h1, h3, fun e => (h2 e).elim⟩, hk, ha⟩

theorem Kw.first {t kw : Str} (h : Kw t kw) (hk : KwWord kw) : cWord t = kw := by
  obtain ⟨arg, h1, -, h2⟩ := h
  exact (h1.words hk fun c hc => (h2 c hc).1).1

/-- The first words of lines with source information. -/
theorem infoWord {t : Str} (h : SourceInfo t) : cWord t ∈ [b! ".file", b! ".loc", b! ".stabn", b! ".dbg", b! ".d2line", b! ".d2file"] := by
  rcases h with ⟨i, n, h⟩ | ⟨i, n, c, h, -⟩ | ⟨k, n, h⟩ | ⟨r, h⟩ | ⟨n, h⟩ | ⟨n, h⟩
  · rw [h.kw.first (by decide)]; decide
  · rw [h.kw.first (by decide)]; decide
  · rw [h.kw.first (by decide)]; decide
  · rw [(h.words (by decide) (by simp [Blank])).1]; decide
  · rw [h.kw.first (by decide)]; decide
  · rw [h.kw.first (by decide)]; decide

/-! ### Tabs -/

theorem padTabs_noTab (s r : Str) (k : Nat) (h : 9 ∉ s) : padTabs k (s ++ r) = s ++ padTabs (k + s.length) r := by
  induction s generalizing k with
  | nil => rfl
  | cons c s ih =>
    rw [List.mem_cons, not_or] at h
    rw [List.cons_append, padTabs, if_neg (fun e => h.1 e.symm), ih (k + 1) h.2, List.cons_append, List.length_cons,
      show k + 1 + s.length = k + (s.length + 1) by omega]

theorem padTabs_sep (bs r : Str) (k : Nat) (h : Blanks bs) : ∃ bs' k', padTabs k (bs ++ r) = bs' ++ padTabs k' r ∧ Blanks bs' ∧
    (bs' = [] ↔ bs = []) := by
  induction bs generalizing k with
  | nil => exact ⟨[], k, rfl, by simp [Blanks], by simp⟩
  | cons b bs ih =>
    have hb := h b (by simp)
    have h' : Blanks bs := fun c hc => h c (by simp [hc])
    rw [List.cons_append, padTabs]
    split
    · obtain ⟨bs', k', e, i1, -⟩ := ih k h'
      refine ⟨List.replicate (8 - k % 8) 32 ++ bs', k', by rw [e, List.append_assoc], ?_, ?_⟩
      · intro c hc
        rcases List.mem_append.1 hc with hc | hc
        · rw [(List.mem_replicate.1 hc).2]; exact .inl rfl
        · exact i1 c hc
      · constructor
        · intro hh
          have := congrArg List.length hh
          simp only [List.length_append, List.length_replicate, List.length_nil] at this
          omega
        · intro hh; cases hh
    · obtain ⟨bs', k', e, i1, -⟩ := ih (k + 1) h'
      refine ⟨b :: bs', k', by rw [e]; rfl, ?_, by simp⟩
      intro c hc
      rcases List.mem_cons.1 hc with rfl | hc
      · exact hb
      · exact i1 c hc

theorem padTabs_noTabs (s : Str) (k : Nat) (h : 9 ∉ s) : padTabs k s = s := by
  have := padTabs_noTab s [] k h
  simpa [padTabs] using this

theorem padTabs_first {s : Str} (k : Nat) (h : ∀ c ∈ s.head?, ¬ Blank c) : (padTabs k s).head? = s.head? := by
  cases s with
  | nil => rfl
  | cons c s =>
    rw [padTabs, if_neg (fun e => h c rfl (.inr e))]
    rfl

theorem tabbed {kw sep args : Str} (hk : KwWord kw) (h : Spaced sep args) :
    ∃ bs' k, expandTabs (b! "\t" ++ kw ++ sep ++ args) = 32 :: 32 :: List.replicate 6 32 ++ kw ++ bs' ++ padTabs k args ∧ Blanks bs' ∧
      (bs' = [] → args = []) := by
  obtain ⟨h1, h2, h3, h5⟩ := h
  have t : 9 ∉ kw := fun hc => hk.2 _ hc (.inr rfl)
  rw [expandTabs_eq, show b! "\t" ++ kw ++ sep ++ args = 9 :: (kw ++ (sep ++ args)) by simp, padTabs, if_pos rfl, padTabs_noTab _ _ _ t]
  obtain ⟨bs', k', e, i1, i2⟩ := padTabs_sep sep args (0 + kw.length) h1
  rw [e]
  exact ⟨bs', k', by simp [List.replicate], i1, fun hb => h2 (i2.1 hb)⟩

theorem pad_blanks : Blanks (32 :: 32 :: List.replicate 6 32) := by decide

theorem tabbed_shape {kw sep args : Str} (hk : KwWord kw) (h : Spaced sep args) :
    ∃ k, Shape (expandTabs (b! "\t" ++ kw ++ sep ++ args)) kw (padTabs k args) := by
  obtain ⟨bs', k, e, h1, h2⟩ := tabbed hk h
  exact ⟨k, ⟨_, bs', e, pad_blanks, h1, fun hb => by rw [h2 hb]; rfl⟩, hk, by rw [padTabs_first k h.2.2.1]; exact h.2.2.1⟩

/-! ### What a line is -/

/-- The keyword and the arguments, for lines that have them. -/
def CLine.parts : CLine → Option (Str × Str × Str)
  | .instr kw sep args | .data kw sep args | .block kw sep args | .directive kw sep args => some (kw, sep, args)
  | .file sep i d name m => some (b! ".file", sep, natToDec i ++ (d.elim [] quotedArg ++ quotedArg name ++ m))
  | .loc sep i n c m => some (b! ".loc", sep, natToDec i ++ b! " " ++ natToDec n ++ columnArg c ++ m)
  | _ => none

theorem symbolChar_line {c : Byte} (h : SymbolChar c) : c ≠ 10 := by
  rintro rfl; revert h; unfold SymbolChar Letter Digit; decide

theorem natToDec_digit {n : Nat} : natToDec n ≠ [] ∧ ∀ c ∈ natToDec n, Digit c := by
  obtain ⟨h1, -, c, cs, e, -⟩ := natToDec_ok n
  refine ⟨by rw [e]; simp, fun d hd => ?_⟩
  have := h1 d hd
  unfold isDec at this
  unfold Digit
  simpa using this

theorem digit_not {c : Byte} (h : Digit c) : ¬ Blank c ∧ c ≠ 9 ∧ c ≠ 10 := by
  refine ⟨?_, ?_, ?_⟩
  · rintro (rfl | rfl) <;> revert h <;> unfold Digit <;> decide
  · rintro rfl; revert h; unfold Digit; decide
  · rintro rfl; revert h; unfold Digit; decide

theorem spaced_dec {sep : Str} {i : Nat} {r : Str} (h1 : Blanks sep) (h2 : sep ≠ []) (h4 : 10 ∉ r) : Spaced sep (natToDec i ++ r) := by
  obtain ⟨d1, d2⟩ := natToDec_digit (n := i)
  refine ⟨h1, fun h => (h2 h).elim, ?_, ?_⟩
  · obtain ⟨c, cs, e⟩ := List.exists_cons_of_ne_nil d1
    rw [e]
    intro c' hc
    cases hc
    exact (digit_not (d2 c (by rw [e]; simp))).1
  · intro hc
    rcases List.mem_append.1 hc with hc | hc
    · exact (digit_not (d2 _ hc)).2.2 rfl
    · exact h4 hc

theorem dec_not {n : Nat} {c : Byte} (hc : c ∈ natToDec n) : c ≠ 9 ∧ c ≠ 10 := (digit_not (natToDec_digit.2 c hc)).2

theorem columnArg_not {k : Option Nat} {c : Byte} (hc : c ∈ columnArg k) : c ≠ 9 ∧ c ≠ 10 := by
  cases k with
  | none => cases hc
  | some k =>
    rcases List.mem_append.1 hc with hc | hc
    · cases List.mem_singleton.1 hc; decide
    · exact dec_not hc

theorem CLine.Usual.parts {x : CLine} (h : x.Usual) {kw sep args : Str} (hp : x.parts = some (kw, sep, args)) :
    x.render = b! "\t" ++ kw ++ sep ++ args ∧ (KwWord kw ∧ 10 ∉ kw) ∧ Spaced sep args := by
  cases x with
  | label name nt => cases hp
  | comment ind m text => cases hp
  | instr op sep args =>
    cases hp
    obtain ⟨h1, c, w, rfl, h2, h3⟩ := h
    have hs : ∀ d ∈ c :: w, SymbolChar d := fun d hd => by
      rcases List.mem_cons.1 hd with rfl | hd
      · exact .inl h2
      · exact h3 d hd
    exact ⟨rfl, ⟨⟨by simp, fun d hd => symbolChar_solid (hs d hd)⟩, fun hc => symbolChar_line (hs _ hc) rfl⟩, h1⟩
  | data kw sep args =>
    cases hp
    exact ⟨rfl, (by decide : ∀ kw ∈ dataDirectives, KwWord kw ∧ 10 ∉ kw) _ h.2, h.1⟩
  | file sep i d name m =>
    cases hp
    obtain ⟨h1, h2, h3, h4, h5, h6⟩ := h
    refine ⟨rfl, by decide, ?_⟩
    have key : ∀ c, (c = 9 ∨ c = 10) → c ∈ d.elim [] quotedArg ++ quotedArg name ++ m → False := by
      have q : ∀ (a : Str) (c : Byte), (∀ c ∈ a, c ≠ c! '"' ∧ c ≠ 9 ∧ c ≠ 10) → (c = 9 ∨ c = 10) → c ∈ quotedArg a → False := by
        intro a c ha hc hm
        simp only [quotedArg, List.mem_append] at hm
        rcases hm with (hm | hm) | hm
        · rcases hc with rfl | rfl <;> revert hm <;> decide
        · rcases hc with hc | hc
          · exact (ha c hm).2.1 hc
          · exact (ha c hm).2.2 hc
        · rcases hc with rfl | rfl <;> revert hm <;> decide
      intro c hc hm
      simp only [List.mem_append] at hm
      rcases hm with (hm | hm) | hm
      · cases d with
        | none => cases hm
        | some d => exact q d c (h5 d rfl).2 hc hm
      · exact q name c h4.2 hc hm
      · rcases hc with hc | hc
        · exact (h6 c hm).2.1 hc
        · exact (h6 c hm).2.2 hc
    exact spaced_dec h1 h2 (key 10 (.inr rfl))
  | loc sep i n c m =>
    cases hp
    obtain ⟨h1, h2, -, -, -, -, -, h3, h4, -⟩ := h
    refine ⟨rfl, by decide, ?_⟩
    rw [List.append_assoc, List.append_assoc, List.append_assoc]
    refine spaced_dec h1 h2 ?_
    intro hc
    simp only [List.mem_append, List.mem_cons, List.not_mem_nil, or_false] at hc
    rcases hc with hc | hc | hc | hc
    · revert hc; decide
    · exact (dec_not hc).2 rfl
    · exact (columnArg_not hc).2 rfl
    · exact h4 hc
  | block kw sep args =>
    cases hp
    exact ⟨rfl, (by decide : ∀ kw ∈ [b! ".text", b! ".data", b! ".section", b! ".cfi_endproc"], KwWord kw ∧ 10 ∉ kw) _ h.2.2, h.1⟩
  | directive kw sep args =>
    cases hp
    obtain ⟨h1, ⟨w, rfl, h2⟩, -⟩ := h
    have hs : ∀ d ∈ c! '.' :: w, SymbolChar d := fun d hd => by
      rcases List.mem_cons.1 hd with rfl | hd
      · exact .inr (.inr (.inr (.inl rfl)))
      · exact h2 d hd
    exact ⟨rfl, ⟨⟨by simp, fun d hd => symbolChar_solid (hs d hd)⟩, fun hc => symbolChar_line (hs _ hc) rfl⟩, h1⟩

theorem CLine.Usual.shape {x : CLine} (h : x.Usual) {kw sep args : Str} (hp : x.parts = some (kw, sep, args)) :
    ∃ k, Shape x.text kw (padTabs k args) := by
  obtain ⟨h1, h2, h3⟩ := h.parts hp
  unfold CLine.text
  rw [h1]
  exact tabbed_shape h2.1 h3

theorem CLine.Usual.shape_noTab {x : CLine} (h : x.Usual) {kw sep args : Str} (hp : x.parts = some (kw, sep, args)) (ht : 9 ∉ args) :
    Shape x.text kw args := by
  obtain ⟨k, hs⟩ := h.shape hp
  rwa [padTabs_noTabs args k ht] at hs

theorem CLine.Usual.padded {x : CLine} (h : x.Usual) {kw sep args : Str} (hp : x.parts = some (kw, sep, args)) :
    ∃ r, x.text = 32 :: 32 :: r := by
  obtain ⟨h1, h2, h3⟩ := h.parts hp
  obtain ⟨bs', k, e, -⟩ := tabbed h2.1 h3
  exact ⟨_, by unfold CLine.text; rw [h1, e]; simp only [List.cons_append]; rfl⟩

theorem CLine.Usual.noNewline {x : CLine} (h : x.Usual) : 10 ∉ x.render := by
  cases hp : x.parts with
  | some q =>
    obtain ⟨kw, sep, args⟩ := q
    obtain ⟨h1, ⟨-, h2⟩, h3, h4, h5, h7⟩ := h.parts hp
    rw [h1]
    intro hc
    simp only [List.mem_append] at hc
    rcases hc with ((hc | hc) | hc) | hc
    · revert hc; decide
    · exact h2 hc
    · exact absurd (h3 _ hc) (by decide)
    · exact h7 hc
  | none =>
    cases x with
    | label name nt =>
      obtain ⟨-, h1, h2⟩ := h
      intro hc
      rcases List.mem_append.1 hc with hc | hc
      · rcases List.mem_append.1 hc with hc | hc
        · have := h1 _ hc
          revert this; unfold SymbolChar Letter Digit; decide
        · revert hc; decide
      · rcases h2 with rfl | ⟨bs, t, rfl, h3, h4⟩
        · cases hc
        · rcases List.mem_append.1 hc with hc | hc
          · exact absurd (h3 _ hc) (by decide)
          · rcases List.mem_cons.1 hc with hc | hc
            · revert hc; decide
            · exact h4 hc
    | comment ind m text =>
      obtain ⟨h1, h2, h3, -⟩ := h
      intro hc
      rcases List.mem_append.1 hc with hc | hc
      · exact absurd (h1 _ hc) (by decide)
      · rcases List.mem_append.1 hc with hc | hc
        · exact (by decide : ∀ m ∈ [b! "#", b! "@", b! "//"], 10 ∉ m) m h2 hc
        · exact h3 hc
    | _ => cases hp

theorem label_text {name nt : Str} (h : (CLine.label name nt).Usual) : ∃ r, (CLine.label name nt).text = name ++ b! ":" ++ r ∧
    (r = [] ∨ ∃ bs t, r = bs ++ c! '#' :: t ∧ Blanks bs) := by
  obtain ⟨-, h1, h2⟩ := h
  have t : 9 ∉ name ++ b! ":" := by
    intro hc
    rcases List.mem_append.1 hc with hc | hc
    · have := h1 _ hc
      revert this; unfold SymbolChar Letter Digit; decide
    · revert hc; decide
  have e : (CLine.label name nt).text = name ++ b! ":" ++ padTabs (0 + (name ++ b! ":").length) nt := by
    show expandTabs (name ++ b! ":" ++ nt) = _
    rw [expandTabs_eq, padTabs_noTab _ _ _ t]
  refine ⟨_, e, ?_⟩
  rcases h2 with rfl | ⟨bs, t, rfl, h3, -⟩
  · exact .inl rfl
  · obtain ⟨bs', k', e', i1, -⟩ := padTabs_sep bs (c! '#' :: t) (0 + (name ++ b! ":").length) h3
    refine .inr ⟨bs', padTabs (k' + 1) t, ?_, i1⟩
    rw [e', padTabs, if_neg (by decide)]

/-- A character that begins comments. -/
def MarkChar (c : Byte) : Prop := c = c! '#' ∨ c = c! '@' ∨ c = c! '/'

theorem MarkChar.not {c : Byte} (h : MarkChar c) : ¬ Blank c ∧ c ≠ 9 ∧ ¬ SymbolChar c ∧ c ≠ c! '.' := by
  rcases h with rfl | rfl | rfl <;> unfold SymbolChar Letter Digit <;> decide

theorem mark_first {m : Str} (h : m ∈ [b! "#", b! "@", b! "//"]) : ∃ c r, m = c :: r ∧ MarkChar c ∧ (r = [] ∨ c = c! '/' ∧ r = b! "/") := by
  simp only [List.mem_cons, List.not_mem_nil, or_false] at h
  rcases h with rfl | rfl | rfl
  · exact ⟨_, _, rfl, .inl rfl, .inl rfl⟩
  · exact ⟨_, _, rfl, .inr (.inl rfl), .inl rfl⟩
  · exact ⟨_, _, rfl, .inr (.inr rfl), .inr ⟨rfl, rfl⟩⟩

theorem comment_text {ind m t : Str} (h : (CLine.comment ind m t).Usual) :
    ∃ bs c r, (CLine.comment ind m t).text = bs ++ c :: r ∧ Blanks bs ∧ MarkChar c := by
  obtain ⟨h1, h2, -⟩ := h
  obtain ⟨c, r, rfl, hc, -⟩ := mark_first h2
  obtain ⟨bs, k, e, hb, -⟩ := padTabs_sep ind (c :: (r ++ t)) 0 h1
  refine ⟨bs, c, padTabs (k + 1) (r ++ t), ?_, hb, hc⟩
  show expandTabs (ind ++ (c :: (r ++ t))) = _
  rw [expandTabs_eq, e, padTabs, if_neg hc.not.2.1]

theorem label_word {name nt : Str} (h : (CLine.label name nt).Usual) : ∃ r, cWord (CLine.label name nt).text = name ++ c! ':' :: r := by
  obtain ⟨r, e, -⟩ := label_text h
  have hk : ∀ c ∈ name ++ b! ":", ¬ Blank c := by
    intro c hc
    rcases List.mem_append.1 hc with hc | hc
    · exact symbolChar_solid (h.2.1 c hc)
    · rw [List.mem_singleton.1 hc]; decide
  refine ⟨r.takeWhile fun c => !blankB c, ?_⟩
  have h1 := dropWhile_blanks_c (bs := []) (r := name ++ b! ":" ++ r) (by simp [Blanks]) (by
    obtain ⟨c, w, hw⟩ := List.exists_cons_of_ne_nil h.1
    intro d hd
    rw [hw] at hd
    cases hd
    exact hk c (by rw [hw]; simp))
  rw [List.nil_append] at h1
  unfold cWord
  rw [e, h1, List.takeWhile_append_of_pos fun c hc => by simpa [blankB] using hk c hc]
  simp

theorem cline_ends {x : CLine} (h : x.Wf) : EndsBlock x.text ↔ x.isBlock = true := by
  constructor
  · rintro ⟨w, hw, hc⟩
    cases hb : x.isBlock with
    | true => rfl
    | false =>
      have := h.ends hb w hw
      rw [(occurs_iff _ _).2 hc] at this
      cases this
  · intro hb
    cases x with
    | block kw sep args =>
      obtain ⟨k, ⟨bs, bs', e, -⟩, -⟩ := h.usual.shape (kw := kw) (sep := sep) (args := args) rfl
      refine ⟨kw, ?_, bs, bs' ++ padTabs k args, by rw [e]; simp⟩
      have := h.usual.2.2
      simp only [List.mem_cons, List.not_mem_nil, or_false] at this ⊢
      rcases this with h | h | h | h <;> simp [h]
    | _ => cases hb

/-- Lines with source information. -/
def CLine.isInfo : CLine → Bool
  | .file .. | .loc .. => true
  | _ => false

theorem decVal_digitsVal (s : Str) : decVal s = digitsVal s := rfl

theorem numberOf_dec {n : Nat} (h : n < 2147483648) : numberOf (natToDec n) = n := by
  unfold numberOf
  rw [decVal_digitsVal, (natToDec_ok n).2.1, if_pos h]

theorem loc_noTab {sep : Str} {i n : Nat} {c : Option Nat} {m : Str} (h : (CLine.loc sep i n c m).Usual) :
    9 ∉ natToDec i ++ b! " " ++ natToDec n ++ columnArg c ++ m := by
  intro hc
  simp only [List.mem_append, or_assoc] at hc
  rcases hc with hc | hc | hc | hc | hc
  · exact (dec_not hc).1 rfl
  · revert hc; decide
  · exact (dec_not hc).1 rfl
  · exact (columnArg_not hc).1 rfl
  · exact h.2.2.2.2.2.2.2.1 hc

theorem file_noTab {sep : Str} {i : Nat} {d : Option Str} {name m : Str} (h : (CLine.file sep i d name m).Usual) :
    9 ∉ natToDec i ++ (d.elim [] quotedArg ++ quotedArg name ++ m) := by
  obtain ⟨-, -, -, h4, h5, h6⟩ := h
  have q : ∀ (a : Str), (∀ c ∈ a, c ≠ c! '"' ∧ c ≠ 9 ∧ c ≠ 10) → 9 ∉ quotedArg a := by
    intro a ha hm
    simp only [quotedArg, List.mem_append] at hm
    rcases hm with (hm | hm) | hm
    · revert hm; decide
    · exact (ha 9 hm).2.1 rfl
    · revert hm; decide
  intro hc
  simp only [List.mem_append] at hc
  rcases hc with hc | (hc | hc) | hc
  · exact (dec_not hc).1 rfl
  · cases d with
    | none => cases hc
    | some d => exact q d (h5 d rfl).2 hc
  · exact q name h4.2 hc
  · exact (h6 9 hc).2.1 rfl

theorem loc_line {sep : Str} {i n : Nat} {c : Option Nat} {m : Str} (h : (CLine.loc sep i n c m).Usual) :
    LocLine (CLine.loc sep i n c m).text i n (c.getD 0 : Nat) := by
  obtain ⟨⟨bs, bs', e, h1, h2, h3⟩, -⟩ := h.shape_noTab (kw := b! ".loc") (sep := sep) rfl (loc_noTab h)
  obtain ⟨-, -, -, g1, g2, g3, g4, -, -, g5⟩ := h
  have d1 := natToDec_digit (n := i)
  have d2 := natToDec_digit (n := n)
  have sp : ∀ (r : Str), ∀ c ∈ (b! " " ++ r).head?, ¬ Digit c := by
    intro r c hc; cases hc; unfold Digit; decide
  have hc : ∀ c' ∈ (columnArg c ++ m).head?, ¬ Digit c' := by
    cases c with
    | none => exact g4
    | some k => unfold columnArg; rw [Option.elim_some, List.append_assoc]; exact sp _
  refine ⟨natToDec i, b! " ", natToDec n, columnArg c ++ m, ⟨d1.1, d1.2, sp []⟩, (numberOf_dec g1).symm, by simp, by decide,
    ⟨d2.1, d2.2, hc⟩, (numberOf_dec g2).symm, ⟨bs, bs', h1, ?_, h2, by rw [e]; simp⟩, ?_⟩
  · intro hb
    have := h3 hb
    simp [d1.1] at this
  · cases c with
    | none =>
      refine .inr ⟨fun bs' k r' _ hb hk e => ?_, rfl⟩
      obtain ⟨y, ys, rfl⟩ := List.exists_cons_of_ne_nil hk.1
      exact g5 rfl bs' y (ys ++ r') (by simpa [columnArg] using e) hb (hk.2.1 y (by simp))
    | some k =>
      have d3 := natToDec_digit (n := k)
      exact .inl ⟨b! " ", natToDec k, m, by simp, by decide, ⟨d3.1, d3.2, g4⟩, rfl, (numberOf_dec (g3 k rfl)).symm⟩

theorem file_line {sep : Str} {i : Nat} {d : Option Str} {name m : Str} (h : (CLine.file sep i d name m).Usual) :
    FileDirective (CLine.file sep i d name m).text i (fileName d name) := by
  obtain ⟨⟨bs, bs', e, h1, h2, h3⟩, -⟩ := h.shape_noTab (kw := b! ".file") (sep := sep) rfl (file_noTab h)
  obtain ⟨-, -, g1, g2, g3, g4⟩ := h
  have d1 := natToDec_digit (n := i)
  have hb : bs' ≠ [] := by
    intro hb
    have := h3 hb
    simp [d1.1] at this
  have hd : ∀ c ∈ (b! " " : Str).head?, ¬ Digit c := by
    intro c hc; cases hc; unfold Digit; decide
  cases d with
  | none =>
    refine ⟨natToDec i, b! " ", b! "\"" ++ name ++ b! "\"", name, m, ⟨d1.1, d1.2, hd⟩, (numberOf_dec g1).symm, by simp, by decide,
      ⟨g2.1, fun hc => (g2.2 _ hc).1 rfl, rfl⟩, ⟨bs, bs', h1, hb, h2, by rw [e]; simp [quotedArg]⟩, .inr ⟨?_, rfl⟩⟩
    intro bs' q' b r' k1 k2 k3 k4
    obtain ⟨-, -, rfl⟩ := k3
    exact (g4 c! '"' (by rw [k4]; simp)).1 rfl
  | some d =>
    have g3 := g3 d rfl
    refine ⟨natToDec i, b! " ", b! "\"" ++ d ++ b! "\"", d, quotedArg name ++ m, ⟨d1.1, d1.2, hd⟩, (numberOf_dec g1).symm, by simp, by decide,
      ⟨g3.1, fun hc => (g3.2 _ hc).1 rfl, rfl⟩, ⟨bs, bs', h1, hb, h2, by rw [e]; simp [quotedArg]⟩,
      .inl ⟨b! " ", b! "\"" ++ name ++ b! "\"", name, m, by simp, by decide, ⟨g2.1, fun hc => (g2.2 _ hc).1 rfl, rfl⟩, by simp [quotedArg], rfl⟩⟩

theorem cline_info {x : CLine} (h : x.Usual) : SourceInfo x.text ↔ x.isInfo = true := by
  constructor
  · intro hi
    have hw := infoWord hi
    have key : ∀ {kw sep args : Str}, x.parts = some (kw, sep, args) → kw ∈ [b! ".file", b! ".loc", b! ".stabn", b! ".dbg", b! ".d2line", b! ".d2file"] := by
      intro kw sep args hp
      obtain ⟨k, hs⟩ := h.shape hp
      rw [hs.words.1] at hw
      exact hw
    cases x with
    | file sep i d name m => rfl
    | loc sep i n c m => rfl
    | label name nt =>
      exfalso
      obtain ⟨r, e⟩ := label_word h
      rw [e] at hw
      have : c! ':' ∈ name ++ c! ':' :: r := by simp
      exact (by decide : ∀ w ∈ [b! ".file", b! ".loc", b! ".stabn", b! ".dbg", b! ".d2line", b! ".d2file"], c! ':' ∉ w) _ hw this
    | comment ind m t =>
      exfalso
      obtain ⟨bs, c, r, e, hb, hc⟩ := comment_text h
      rw [e] at hw
      have : ∃ w, cWord (bs ++ c :: r) = c :: w := by
        unfold cWord
        rw [dropWhile_blanks_c hb (by intro d hd; cases hd; exact hc.not.1), List.takeWhile_cons_of_pos (by simpa [blankB] using hc.not.1)]
        exact ⟨_, rfl⟩
      obtain ⟨w, this⟩ := this
      rw [this] at hw
      have hd := hc.not.2.2.2
      simp [hd] at hw
    | instr op sep args =>
      exfalso
      have := key (kw := op) rfl
      obtain ⟨-, c, w, rfl, hc, -⟩ := h
      simp only [List.mem_cons, List.not_mem_nil, or_false, List.cons.injEq] at this
      have hd : c ≠ c! '.' := by rintro rfl; revert hc; unfold Letter; decide
      rcases this with ⟨h, -⟩ | ⟨h, -⟩ | ⟨h, -⟩ | ⟨h, -⟩ | ⟨h, -⟩ | ⟨h, -⟩ <;> exact hd h
    | data kw sep args =>
      exfalso
      have := key (kw := kw) rfl
      exact (by decide : ∀ kw ∈ dataDirectives, kw ∉ [b! ".file", b! ".loc", b! ".stabn", b! ".dbg", b! ".d2line", b! ".d2file"]) _ h.2 this
    | block kw sep args =>
      exfalso
      have := key (kw := kw) rfl
      exact (by decide : ∀ kw ∈ [b! ".text", b! ".data", b! ".section", b! ".cfi_endproc"],
        kw ∉ [b! ".file", b! ".loc", b! ".stabn", b! ".dbg", b! ".d2line", b! ".d2file"]) _ h.2.2 this
    | directive kw sep args =>
      exfalso
      have hk := key (kw := kw) rfl
      obtain ⟨k, hs⟩ := h.shape (kw := kw) (sep := sep) (args := args) rfl
      have hf := padTabs_first k (h.parts (kw := kw) (sep := sep) (args := args) rfl).2.2.2.2.1
      obtain ⟨-, -, -, g1, g2, g3⟩ := h
      have hk : kw = b! ".file" ∨ kw = b! ".loc" := by
        rcases List.mem_cons.1 hk with h | h
        · exact .inl h
        · rcases List.mem_cons.1 h with h | h
          · exact .inr h
          · exact (g1 h).elim
      rcases hk with this | this
      rotate_left
      · obtain ⟨r0, rfl, hr0⟩ := g3 this
        have hw := hs.words.1.trans this
        rcases hi with ⟨i, n, h⟩ | ⟨i, n, c, h, hi⟩ | ⟨k, n, h⟩ | ⟨r, h⟩ | ⟨n, h⟩ | ⟨n, h⟩
        · have := h.kw.first (by decide); rw [hw] at this; revert this; decide
        · obtain ⟨d, bs, b, r, k1, k2, k3, k4, -, -, k5, -⟩ := h
          have e := (k5.words (by decide) (by
            obtain ⟨y, ys, e⟩ := List.exists_cons_of_ne_nil k1.1
            rw [e]
            intro c hc
            cases hc
            exact (digit_not (k1.2.1 y (by rw [e]; simp))).1)).2
          rw [hs.words.2, padTabs, if_neg (by decide)] at e
          obtain ⟨y, ys, rfl⟩ := List.exists_cons_of_ne_nil k1.1
          simp only [List.cons_append, List.cons.injEq] at e
          obtain ⟨rfl, e⟩ := e
          cases ys with
          | nil => exact hi (by rw [k2]; decide)
          | cons z ys =>
            have hz := k1.2.1 z (by simp)
            cases r0 with
            | nil => simp [padTabs] at e
            | cons w r0 =>
              rw [padTabs] at e
              split at e
              · rename_i h9
                have : 0 < 8 - (k + 1) % 8 := by omega
                obtain ⟨q, hq⟩ : ∃ q, 8 - (k + 1) % 8 = q + 1 := ⟨8 - (k + 1) % 8 - 1, by omega⟩
                rw [hq, List.replicate_succ] at e
                simp only [List.cons_append, List.cons.injEq] at e
                rw [← e.1] at hz
                revert hz; unfold Digit; decide
              · simp only [List.cons_append, List.cons.injEq] at e
                exact hr0 z (by rw [← e.1]; rfl) hz
        · have := h.kw.first (by decide); rw [hw] at this; revert this; decide
        · have := (h.words (by decide) (by simp [Blank])).1; rw [hw] at this; revert this; decide
        · have := h.kw.first (by decide); rw [hw] at this; revert this; decide
        · have := h.kw.first (by decide); rw [hw] at this; revert this; decide
      rcases hi with ⟨i, n, h⟩ | ⟨i, n, c, h, -⟩ | ⟨k, n, h⟩ | ⟨r, h⟩ | ⟨n, h⟩ | ⟨n, h⟩
      · obtain ⟨d, bs, q, a, r, k1, -, -, -, -, k2, -⟩ := h
        have e := (k2.words (by decide) (by
          obtain ⟨y, ys, e⟩ := List.exists_cons_of_ne_nil k1.1
          rw [e]
          intro c hc
          cases hc
          exact (digit_not (k1.2.1 y (by rw [e]; simp))).1)).2
        rw [hs.words.2] at e
        obtain ⟨y, ys, e'⟩ := List.exists_cons_of_ne_nil k1.1
        exact g2 this y (by rw [← hf, e, e']; rfl) (k1.2.1 y (by rw [e']; simp))
      all_goals have hs := hs.words.1.trans this
      · have := h.kw.first (by decide); rw [hs] at this; revert this; decide
      · have := h.kw.first (by decide); rw [hs] at this; revert this; decide
      · have := (h.words (by decide) (by simp [Blank])).1; rw [hs] at this; revert this; decide
      · have := h.kw.first (by decide); rw [hs] at this; revert this; decide
      · have := h.kw.first (by decide); rw [hs] at this; revert this; decide
  · intro hb
    cases x with
    | file sep i d name m => exact .inl ⟨_, _, file_line h⟩
    | loc sep i n c m => exact .inr (.inl ⟨_, _, _, loc_line h, by have := h.2.2.1; omega⟩)
    | _ => cases hb

/-! ### Which lines are shown -/

theorem not_last {t a : Str} {c : Byte} (h : ∀ c ∈ t.getLast?, c ≠ c! '=' ∧ c ≠ c! '(') (e : t = a ++ [c]) : c ≠ c! '=' ∧ c ≠ c! '(' :=
  h c (by rw [e]; simp)

theorem not_header {x : CLine} (h : x.Wf) (kind : Str) : ¬ CudaHeader x.text kind := by
  rintro ⟨a, bs, ret, c, t, -, -, -, -, -, -, e⟩
  exact (not_last h.last e).2 rfl

theorem not_cuda {x : CLine} (h : x.Wf) : ¬ StartsCuda x.text := fun ⟨⟨k, hk⟩, _⟩ => not_header h k hk

theorem not_assignsOnly {x : CLine} (h : x.Wf) (l : Str) : ¬ AssignsOnly x.text l := by
  rintro ⟨bs, bs', c, t, -, -, -, -, -, -, e⟩
  exact (not_last h.last e).1 rfl

def CLine.isComment : CLine → Bool
  | .comment .. => true
  | _ => false

theorem not_defines {x : CLine} (h : x.Wf) (hl : x.isLabel = false) (hc : x.isComment = false) (l : Str) : ¬ DefinesOrAssigns x.text l := by
  have hp : ∃ kw sep args, x.parts = some (kw, sep, args) := by
    cases x with
    | label n nt => cases hl
    | comment ind m t => cases hc
    | _ => exact ⟨_, _, _, rfl⟩
  obtain ⟨kw, sep, args, hp⟩ := hp
  obtain ⟨r, e⟩ := h.usual.padded hp
  rintro (⟨h1, h2, ⟨r', e'⟩ | ⟨x, bs, r', e', -⟩⟩ | ⟨c, t, bs, r', rfl, h1, -, -, -, e'⟩ | h' | h')
  · rw [e] at e'
    obtain ⟨c, l, rfl⟩ := List.exists_cons_of_ne_nil h1
    have : (32 : Byte) = c := by simp at e'; exact e'.1
    have h2 := h2 c (by simp)
    rw [← this] at h2
    revert h2; unfold LabelChar SymbolChar Letter Digit; decide
  · rw [e] at e'
    simp at e'
  · rw [e] at e'
    have : (32 : Byte) = c := by simp at e'; exact e'.1
    rw [← this] at h1
    revert h1; unfold SymbolChar Letter Digit; decide
  · exact not_assignsOnly h l h'
  · exact not_header h l h'

theorem blanks_first {bs bs' r r' : Str} {c c' : Byte} (h : Blanks bs) (h' : Blanks bs') (hc : ¬ Blank c) (hc' : ¬ Blank c')
    (e : bs ++ c :: r = bs' ++ c' :: r') : c = c' ∧ r = r' := by
  have e1 := dropWhile_blanks_c (r := c :: r) h (by simpa using hc)
  have e2 := dropWhile_blanks_c (r := c' :: r') h' (by simpa using hc')
  rw [e, e2] at e1
  injection e1 with a b
  exact ⟨a.symm, b.symm⟩

theorem Shape.starts {t kw args : Str} (h : Shape t kw args) {d : Str} (hd : KwWord d) {bs r : Str} (hb : Blanks bs) (e : t = bs ++ d ++ r) : d <+: kw := by
  obtain ⟨⟨b1, b2, e1, h1, h2, h3⟩, h4, h5⟩ := h
  have a1 := dropWhile_blanks_c (r := kw ++ (b2 ++ args)) h1 h4.head
  have a2 := dropWhile_blanks_c (r := d ++ r) hb hd.head
  have : d ++ r = kw ++ (b2 ++ args) := by
    rw [← a1, ← a2]
    congr 1
    rw [← List.append_assoc, ← e, e1]
    simp
  rcases List.append_eq_append_iff.1 this with ⟨y, e2, -⟩ | ⟨y, e2, hz⟩
  · exact ⟨y, e2.symm⟩
  · cases y with
    | nil => rw [List.append_nil] at e2; rw [e2]; exact List.prefix_rfl
    | cons c y =>
      exfalso
      have : Blank c := head_of_blanks h2 h3 c (by rw [hz]; rfl)
      exact hd.2 c (by rw [e2]; simp) this

theorem data_words : ∀ d ∈ dataDirectives, KwWord d := by decide

theorem plain_iff {x : CLine} (h : x.Wf) (hc : x.isComment = false) : PlainDirective x.text ↔ x.shows = false := by
  have hdir : ∀ {w sep args : Str}, x.parts = some (c! '.' :: w, sep, args) → Directive x.text := by
    intro w sep args hp
    obtain ⟨k, ⟨bs, bs', e, h1, -⟩, -⟩ := h.usual.shape hp
    exact ⟨bs, w ++ bs' ++ padTabs k args, h1, by rw [e]; simp⟩
  have hplain : ∀ {w sep args : Str}, x.parts = some (c! '.' :: w, sep, args) → x.isLabel = false → x.shows = false →
      (∀ d ∈ dataDirectives, ¬ d <+: c! '.' :: w) → PlainDirective x.text := by
    intro w sep args hp h1 h2 h3
    refine ⟨hdir hp, not_defines h h1 hc, ?_, ?_⟩
    · rintro ⟨bs, d, r, g1, g2, e⟩
      obtain ⟨_, hs⟩ := h.usual.shape hp
      exact h3 d g2 (hs.starts (data_words d g2) g1 e)
    · intro hi
      have := h.inst h2
      rw [(occurs_iff _ _).2 hi] at this
      cases this
  cases x with
  | comment ind m t => cases hc
  | label name nt =>
    refine ⟨fun hp => ?_, fun h => by cases h⟩
    obtain ⟨r, e, -⟩ := label_text h.usual
    exact (hp.2.1 name (.inl ⟨h.usual.1, fun c hc => .inl (h.usual.2.1 c hc), .inl ⟨r, by rw [e]; simp⟩⟩)).elim
  | instr op sep args =>
    refine ⟨fun hp => ?_, fun h => by cases h⟩
    obtain ⟨⟨b1, r1, g1, e1⟩, -⟩ := hp
    obtain ⟨k, ⟨bs, bs', e, h1, -⟩, -⟩ := h.usual.shape (kw := op) (sep := sep) (args := args) rfl
    obtain ⟨-, c, w, rfl, hc, -⟩ := h.usual
    rw [e1] at e
    have := (blanks_first (r' := w ++ (bs' ++ padTabs k args)) g1 h1 (by decide) (symbolChar_solid (.inl hc)) (e.trans (by simp))).1
    rw [← this] at hc
    exact absurd hc (by unfold Letter; decide)
  | data kw sep args =>
    refine ⟨fun hp => ?_, fun h => by cases h⟩
    obtain ⟨k, ⟨bs, bs', e, h1, -⟩, -⟩ := h.usual.shape (kw := kw) (sep := sep) (args := args) rfl
    exact (hp.2.2.1 ⟨bs, kw, bs' ++ padTabs k args, h1, h.usual.2, by rw [e]; simp⟩).elim
  | file sep i d name m => exact ⟨fun _ => rfl, fun hs => hplain (w := b! "file") rfl rfl hs (by decide)⟩
  | loc sep i n c m => exact ⟨fun _ => rfl, fun hs => hplain (w := b! "loc") rfl rfl hs (by decide)⟩
  | block kw sep args =>
    refine ⟨fun _ => rfl, fun hs => ?_⟩
    have hk := h.usual.2.2
    simp only [List.mem_cons, List.not_mem_nil, or_false] at hk
    rcases hk with rfl | rfl | rfl | rfl
    · exact hplain (w := b! "text") rfl rfl hs (by decide)
    · exact hplain (w := b! "data") rfl rfl hs (by decide)
    · exact hplain (w := b! "section") rfl rfl hs (by decide)
    · exact hplain (w := b! "cfi_endproc") rfl rfl hs (by decide)
  | directive kw sep args =>
    refine ⟨fun _ => rfl, fun hs => ?_⟩
    obtain ⟨-, ⟨w, rfl, -⟩, g, -⟩ := h.usual
    exact hplain rfl rfl hs g

/-! ### Reading the lines -/

/-- What is seen of the line. -/
def CLine.seen (x : CLine) : Seen := { text := x.text, skipped := x.isComment }

/-- The first character that is no blank. -/
theorem render_first {x : CLine} (h : x.Usual) : ∃ bs c r, x.render = bs ++ c :: r ∧ Blanks bs ∧
    ((∃ m t, x = .comment bs m t ∧ MarkChar c ∧ m ++ t = c :: r ∧ (c = c! '/' → r.head? = some c! '/')) ∨
      x.isComment = false ∧ SymbolChar c) := by
  cases x with
  | label name nt =>
    obtain ⟨c, w, rfl⟩ := List.exists_cons_of_ne_nil h.1
    exact ⟨[], c, w ++ b! ":" ++ nt, rfl, by simp [Blanks], .inr ⟨rfl, h.2.1 c (by simp)⟩⟩
  | comment ind m t =>
    obtain ⟨h1, h2, -⟩ := h
    obtain ⟨c, r, rfl, hc, hr⟩ := mark_first h2
    refine ⟨ind, c, r ++ t, rfl, h1, .inl ⟨_, t, rfl, hc, rfl, ?_⟩⟩
    rintro rfl
    rcases hr with rfl | ⟨-, rfl⟩
    · exact absurd h2 (by decide)
    · rfl
  | instr op sep args =>
    obtain ⟨-, c, w, rfl, hc, -⟩ := h
    exact ⟨b! "\t", c, w ++ sep ++ args, by simp [CLine.render], by decide, .inr ⟨rfl, .inl hc⟩⟩
  | data kw sep args =>
    have : ∀ kw ∈ dataDirectives, ∃ c w, kw = c :: w ∧ c = c! '.' := by
      have : ∀ kw ∈ dataDirectives, kw.head? = some c! '.' := by decide
      intro kw hk
      cases kw with
      | nil => exact absurd (this _ hk) (by simp)
      | cons c w => exact ⟨c, w, rfl, by simpa using this _ hk⟩
    obtain ⟨c, w, rfl, rfl⟩ := this kw h.2
    exact ⟨b! "\t", c! '.', w ++ sep ++ args, by simp [CLine.render], by decide, .inr ⟨rfl, by unfold SymbolChar Letter Digit; decide⟩⟩
  | file sep i d name m =>
    exact ⟨b! "\t", c! '.', b! "file" ++ sep ++ (natToDec i ++ (d.elim [] quotedArg ++ quotedArg name ++ m)), by simp [CLine.render], by decide, .inr ⟨rfl, by unfold SymbolChar Letter Digit; decide⟩⟩
  | loc sep i n c m =>
    exact ⟨b! "\t", c! '.', b! "loc" ++ sep ++ (natToDec i ++ b! " " ++ natToDec n ++ columnArg c ++ m), by simp [CLine.render], by decide, .inr ⟨rfl, by unfold SymbolChar Letter Digit; decide⟩⟩
  | block kw sep args =>
    have hk := h.2.2
    simp only [List.mem_cons, List.not_mem_nil, or_false] at hk
    have hd : ∃ w, kw = c! '.' :: w := by rcases hk with rfl | rfl | rfl | rfl <;> exact ⟨_, rfl⟩
    obtain ⟨w, rfl⟩ := hd
    exact ⟨b! "\t", c! '.', w ++ sep ++ args, by simp [CLine.render], by decide, .inr ⟨rfl, by unfold SymbolChar Letter Digit; decide⟩⟩
  | directive kw sep args =>
    obtain ⟨-, ⟨w, rfl, -⟩, -⟩ := h
    exact ⟨b! "\t", c! '.', w ++ sep ++ args, by simp [CLine.render], by decide, .inr ⟨rfl, by unfold SymbolChar Letter Digit; decide⟩⟩

theorem dropWhile_lead {bs r : Str} {c : Byte} (h : Blanks bs) (hc : ¬ Blank c) : (bs ++ c :: r).dropWhile (fun c => c = 32 || c = 9) = c :: r := by
  have := dropWhile_blanks_c (r := c :: r) h (by simpa using hc)
  refine Eq.trans ?_ this
  congr 1
  funext d
  show _ = decide (Blank d)
  rw [Bool.eq_iff_iff, decide_eq_true_iff]
  simp [Blank]

theorem symbolChar_marks {c : Byte} (h : SymbolChar c) : c ≠ c! '#' ∧ c ≠ c! '/' ∧ c ≠ c! '@' ∧ c ≠ c! ';' := by
  refine ⟨?_, ?_, ?_, ?_⟩ <;> rintro rfl <;> revert h <;> unfold SymbolChar Letter Digit <;> decide

theorem only_comment {x : CLine} (h : x.Usual) : OnlyComment x.render ↔ x.isComment = true := by
  obtain ⟨bs, c, r, e, hb, h'⟩ := render_first h
  constructor
  · rintro ⟨b1, t, g1, g2, g3⟩
    rcases h' with ⟨m, t, rfl, -⟩ | ⟨hn, hc⟩
    · rfl
    · exfalso
      obtain ⟨m1, m2, m3, m4⟩ := symbolChar_marks hc
      have key : ∀ {d : Byte} {r' : Str}, t = d :: r' → ¬ Blank d → d = c := by
        intro d r' ht hd
        rw [ht, e] at g2
        exact (blanks_first hb g1 (symbolChar_solid hc) hd g2).1.symm
      rcases g3 with ⟨r', g⟩ | ⟨r', g⟩ | ⟨r', g⟩ | ⟨y, g⟩ | ⟨r', g, -⟩
      · exact m1 (key g.symm (by decide)).symm
      · exact m3 (key g.symm (by decide)).symm
      · exact m2 (key (r' := b! "/" ++ r') g.symm (by decide)).symm
      · exact m2 (key (r' := b! "*" ++ y ++ b! "*/") (by rw [g]; simp) (by decide)).symm
      · exact m4 (key g (by decide)).symm
  · intro hc
    cases x with
    | comment ind m t =>
      obtain ⟨g1, g2, -⟩ := h
      refine ⟨ind, m ++ t, g1, rfl, ?_⟩
      simp only [List.mem_cons, List.not_mem_nil, or_false] at g2
      rcases g2 with rfl | rfl | rfl
      · exact .inl ⟨t, rfl⟩
      · exact .inr (.inl ⟨t, rfl⟩)
      · exact .inr (.inr (.inl ⟨t, rfl⟩))
    | _ => cases hc

theorem no_words {x : CLine} (h : x.Usual) : opensComment x.render = false ∧ startsWithWord [b! "#APP", b! "# Begin ASM"] x.render = false ∧
    startsWithWord [b! "#NO_APP", b! "# End ASM"] x.render = false ∧ x.render.all (fun c => c = 32 || c = 9) = false := by
  obtain ⟨bs, c, r, e, hb, h'⟩ := render_first h
  have hs : ¬ Blank c := by
    rcases h' with ⟨m, t, -, hc, -⟩ | ⟨-, hc⟩
    · exact hc.not.1
    · exact symbolChar_solid hc
  unfold opensComment startsWithWord
  rw [e, dropWhile_lead hb hs]
  refine ⟨?_, ?_, ?_, ?_⟩
  · have : c = c! '/' → r.head? = some c! '/' := by
      rcases h' with ⟨m, t, -, -, -, hc⟩ | ⟨-, hc⟩
      · exact hc
      · exact fun h => ((symbolChar_marks hc).2.1 h).elim
    cases hh : List.isPrefixOf b! "/*" (c :: r) with
    | false => rfl
    | true =>
      rw [List.isPrefixOf_cons_cons] at hh
      rw [Bool.and_eq_true] at hh
      have := this (by simpa using (beq_iff_eq.1 hh.1).symm)
      cases r with
      | nil => cases this
      | cons d r =>
        cases this
        exact absurd hh.2 (by simp [List.isPrefixOf])
  · rcases h' with ⟨m, t, rfl, -, hm, -⟩ | ⟨-, hc⟩
    · have h1 := h.2.2.2 b! "#APP" (by simp)
      have h2 := h.2.2.2 b! "# Begin ASM" (by simp)
      rw [← List.isPrefixOf_iff_prefix, Bool.not_eq_true, hm] at h1 h2
      simp only [List.any_cons, List.any_nil, Bool.or_false]
      rw [h1, h2]
      rfl
    · have := (symbolChar_marks hc).1
      simp only [List.any_cons, List.any_nil, Bool.or_false]
      rw [List.isPrefixOf_cons_cons, List.isPrefixOf_cons_cons]
      simp [Ne.symm this]
  · rcases h' with ⟨m, t, rfl, -, hm, -⟩ | ⟨-, hc⟩
    · have h1 := h.2.2.2 b! "#NO_APP" (by simp)
      have h2 := h.2.2.2 b! "# End ASM" (by simp)
      rw [← List.isPrefixOf_iff_prefix, Bool.not_eq_true, hm] at h1 h2
      simp only [List.any_cons, List.any_nil, Bool.or_false]
      rw [h1, h2]
      rfl
    · have := (symbolChar_marks hc).1
      simp only [List.any_cons, List.any_nil, Bool.or_false]
      rw [List.isPrefixOf_cons_cons, List.isPrefixOf_cons_cons]
      simp [Ne.symm this]
  · rw [List.all_eq_false]
    refine ⟨c, by simp, ?_⟩
    unfold Blank at hs
    simpa using hs

variable [Recognizers]

omit [Recognizers] in
theorem scan_eta {a : Scan} {ts : List Seen} {sh : List Str} (h : { a with placed := false } = ({ texts := ts, shown := sh } : Scan)) :
    a = { placed := a.placed, texts := ts, shown := sh } := by
  cases a
  simp only [Scan.mk.injEq] at h ⊢
  simpa using h

theorem line_item {f : Filter} (hf : UsualFilter f) (pl : Bool) (ts : List Seen) (sh : List Str) {x : CLine} (h : x.Wf) :
    ∃ (b pl' : Bool), Scan.line f { placed := pl, texts := ts, shown := sh } x.render =
        { placed := pl', texts := ts ++ (if b then [] else [x.seen]), shown := sh ++ (if x.shows then [x.text] else []) } ∧
      (b = true → x.isDirective = true ∧ occurs b! ".cfi_startproc" x.text = true) := by
  obtain ⟨w1, w2, w3, w4⟩ := no_words h.usual
  unfold Scan.line
  simp only [List.nil_append, w1, w2, w3, w4, Bool.or_self, Bool.and_false, Bool.false_eq_true, if_false]
  rw [if_neg (show ¬ ((0 : Int) > 0) by omega)]
  have ht : cleaned f x.render = x.text := by unfold cleaned; rw [hf.whitespace]; rfl
  rw [ht]
  unfold Scan.see
  by_cases hd : f.directives = true ∧ pl = false ∧ occurs b! ".cfi_startproc" x.text
  · rw [if_pos hd]
    have hx : x.isDirective = true := by
      cases hx : x.isDirective with
      | true => rfl
      | false =>
        have := h.start hx
        rw [hd.2.2] at this
        cases this
    refine ⟨true, pl, ?_, fun _ => ⟨hx, hd.2.2⟩⟩
    cases x with
    | directive kw sep args => simp [CLine.shows]
    | _ => cases hx
  · rw [if_neg hd]
    have hsk : (decide (f.libraryFunctions = true ∨ f.commentOnly = true ∧ (if false = true then CudaComment x.render else OnlyComment x.render))) =
        x.isComment := by
      rw [Bool.eq_iff_iff, decide_eq_true_iff, ← only_comment h.usual, hf.library, hf.comments]
      simp
    refine ⟨false, ?_⟩
    simp only [hsk, show decide ((0 : Int) > 0) = false by decide]
    refine ⟨_, scan_eta ?_, by simp⟩
    cases hc : x.isComment with
    | true =>
      have : x.shows = false := by cases x <;> first | rfl | cases hc
      simp [this, CLine.seen, hc]
    | false =>
      simp only [not_cuda h, plain_iff h hc, hf.directives, and_false, decide_false, Bool.or_self, Bool.false_eq_true, if_false, true_and]
      cases hsh : x.shows with
      | false => simp [CLine.seen, hc]
      | true =>
        have hi : x.isInfo = false := by cases x <;> first | rfl | cases hsh
        simp [CLine.seen, hc, cline_info h.usual, hi]

/-- The whole input. -/
theorem scan_items_more {f : Filter} (hf : UsualFilter f) (xs : List CLine) (h : ∀ x ∈ xs, x.Wf) (pl : Bool) (ts : List Seen) (sh : List Str) :
    ∃ (ys : List CLine) (pl' : Bool), (xs.map CLine.render).foldl (Scan.line f) { placed := pl, texts := ts, shown := sh } =
        { placed := pl', texts := ts ++ ys.map CLine.seen, shown := sh ++ (xs.filter CLine.shows).map CLine.text } ∧
      ys.Sublist xs ∧ ys.filter (fun x => !x.isDirective) = xs.filter (fun x => !x.isDirective) ∧
      ∀ x ∈ xs, occurs b! ".cfi_startproc" x.text = false → x ∈ ys := by
  induction xs generalizing pl ts sh with
  | nil => exact ⟨[], pl, by simp, by simp, rfl, by simp⟩
  | cons x xs ih =>
    obtain ⟨b, pl1, e, hb⟩ := line_item hf pl ts sh (h x (by simp))
    rw [List.map_cons, List.foldl_cons, e]
    obtain ⟨ys, pl2, e2, i1, i2, i3⟩ := ih (fun y hy => h y (by simp [hy])) pl1 _ _
    rw [e2]
    cases b with
    | true =>
      refine ⟨ys, pl2, ?_, i1.cons _, ?_, fun z hz ho => ?_⟩
      · have : x.shows = false := by have := (hb rfl).1; cases x <;> first | rfl | cases this
        simp [this]
      · rw [List.filter_cons_of_neg (by simp [(hb rfl).1]), i2]
      · rcases List.mem_cons.1 hz with rfl | hz
        · rw [(hb rfl).2] at ho; cases ho
        · exact i3 z hz ho
    | false =>
      refine ⟨x :: ys, pl2, ?_, i1.cons_cons _, ?_, fun z hz ho => ?_⟩
      · cases hs : x.shows <;> simp [hs]
      · rw [List.filter_cons, List.filter_cons, i2]
      · rcases List.mem_cons.1 hz with rfl | hz
        · simp
        · exact List.mem_cons_of_mem _ (i3 z hz ho)

theorem scan_items {f : Filter} (hf : UsualFilter f) (xs : List CLine) (h : ∀ x ∈ xs, x.Wf) (pl : Bool) (ts : List Seen) (sh : List Str) :
    ∃ (ys : List CLine) (pl' : Bool), (xs.map CLine.render).foldl (Scan.line f) { placed := pl, texts := ts, shown := sh } =
        { placed := pl', texts := ts ++ ys.map CLine.seen, shown := sh ++ (xs.filter CLine.shows).map CLine.text } ∧
      ys.Sublist xs ∧ ys.filter (fun x => !x.isDirective) = xs.filter (fun x => !x.isDirective) := by
  obtain ⟨ys, pl', h1, h2, h3, -⟩ := scan_items_more hf xs h pl ts sh
  exact ⟨ys, pl', h1, h2, h3⟩

end AsmParser
