/-
Helper lemmas: a JSON text has no control characters in its strings.
-/
import Verif.Proofs.Json

namespace AsmParser

/-- Outside strings, in a string, behind a backslash in a string. -/
inductive Lx where
  | out
  | str
  | esc
deriving DecidableEq

/-- Follow the strings of a text; `none` if a string contains a control character. -/
def lex : Lx → Str → Option Lx
  | st, [] => some st
  | .out, c :: s => lex (if c = 34 then .str else .out) s
  | .str, c :: s => if c < 32 then none else lex (if c = 34 then .out else if c = 92 then .esc else .str) s
  | .esc, c :: s => if c < 32 then none else lex .str s

theorem lex_append (st : Lx) (a b : Str) : lex st (a ++ b) = (lex st a).bind fun st => lex st b := by
  induction a generalizing st with
  | nil => cases st <;> rfl
  | cons c a ih =>
    cases st <;> simp only [List.cons_append, lex]
    · exact ih _
    · split
      · rfl
      · exact ih _
    · split
      · rfl
      · exact ih _

/-- What is read between `s` and `r`. -/
def Took (a b : Lx) (s r : Str) : Prop := ∃ p, s = p ++ r ∧ lex a p = some b

theorem Took.refl (a : Lx) (s : Str) : Took a a s s := ⟨[], rfl, by cases a <;> rfl⟩

theorem Took.trans {a b c : Lx} {s r t : Str} (h1 : Took a b s r) (h2 : Took b c r t) : Took a c s t := by
  obtain ⟨p, rfl, h1⟩ := h1
  obtain ⟨q, rfl, h2⟩ := h2
  exact ⟨p ++ q, (List.append_assoc ..).symm, by rw [lex_append, h1]; exact h2⟩

theorem Took.head {a b : Lx} {c : Byte} {s : Str} (h : lex a [c] = some b) : Took a b (c :: s) s := ⟨[c], rfl, h⟩

theorem lex_free {w : Str} (h : ∀ c ∈ w, c ≠ 34) : lex .out w = some .out := by
  induction w with
  | nil => rfl
  | cons c w ih =>
    simp only [lex, h c (by simp), if_false]
    exact ih fun c hc => h c (by simp [hc])

theorem took_skip (s : Str) : Took .out .out s (skipWs s) := by
  refine ⟨s.takeWhile isJsonWs, List.takeWhile_append_dropWhile.symm, lex_free fun c hc => ?_⟩
  have : isJsonWs c = true := by
    induction s with
    | nil => cases hc
    | cons d s ih =>
      rw [List.takeWhile_cons] at hc
      split at hc
      · rcases List.mem_cons.1 hc with rfl | hc
        · assumption
        · exact ih hc
      · cases hc
  rintro rfl
  exact absurd this (by decide)

theorem hexDigit_lex {c : Byte} {n : Nat} (h : hexDigit? c = some n) : lex .str [c] = some .str := by
  have : ∀ i : Fin 256, hexDigit? (UInt8.ofFin i) ≠ none → (lex .str [UInt8.ofFin i] matches some .str) = true := by decide +kernel
  have := this c.toFin (by rw [show UInt8.ofFin c.toFin = c from rfl, h]; simp)
  rw [show UInt8.ofFin c.toFin = c from rfl] at this
  revert this
  split
  · intro _; assumption
  · intro h; cases h

theorem took_hex4 {s r : Str} {n : Nat} (h : readHex4 s = some (n, r)) : Took .str .str s r := by
  unfold readHex4 at h
  split at h
  · rename_i a b c d rest
    simp only [Option.bind_eq_bind, Option.bind_eq_some_iff, Option.pure_def, Option.some.injEq, Prod.mk.injEq] at h
    obtain ⟨_, h1, _, h2, _, h3, _, h4, _, rfl⟩ := h
    exact (Took.head (hexDigit_lex h1)).trans ((Took.head (hexDigit_lex h2)).trans ((Took.head (hexDigit_lex h3)).trans (Took.head (hexDigit_lex h4))))
  · cases h

theorem took_unicode {s r t : Str} (h : readUnicode s = some (t, r)) : Took .str .str s r := by
  unfold readUnicode at h
  simp only [Option.bind_eq_bind, Option.bind_eq_some_iff] at h
  obtain ⟨⟨u, rest⟩, h1, h⟩ := h
  refine (took_hex4 h1).trans ?_
  simp only at h
  split at h
  · split at h
    · rename_i rest' 
      simp only [Option.bind_eq_some_iff] at h
      obtain ⟨⟨v, rest''⟩, h2, h⟩ := h
      simp only at h
      split at h
      · simp only [Option.pure_def, Option.some.injEq, Prod.mk.injEq] at h
        obtain ⟨-, rfl⟩ := h
        exact (Took.head (b := .esc) rfl).trans ((Took.head (b := .str) rfl).trans (took_hex4 h2))
      · cases h
    · cases h
  · split at h
    · cases h
    · simp only [Option.pure_def, Option.some.injEq, Prod.mk.injEq] at h
      obtain ⟨-, rfl⟩ := h
      exact .refl _ _

theorem escape_lex {c d : Byte} (h : simpleEscape c = some d) : lex .esc [c] = some .str := by
  unfold lex
  rw [if_neg]
  · rfl
  intro hc
  unfold simpleEscape at h
  simp only [beq_iff_eq] at h
  repeat' split at h
  all_goals first
    | (subst_vars; exact absurd hc (by decide))
    | cases h

theorem took_char {s r t : Str} (h : readChar s = some (t, r)) : Took .str .str s r := by
  unfold readChar at h
  split at h
  · exact (Took.head (b := .esc) rfl).trans ((Took.head (b := .str) rfl).trans (took_unicode h))
  · rw [Option.map_eq_some_iff] at h
    obtain ⟨d, h1, h⟩ := h
    simp only [Prod.mk.injEq] at h
    obtain ⟨-, rfl⟩ := h
    exact (Took.head (b := .esc) rfl).trans (Took.head (escape_lex h1))
  · split at h
    · cases h
    · rename_i c rest _ hc
      simp only [Option.some.injEq, Prod.mk.injEq] at h
      obtain ⟨-, rfl⟩ := h
      simp only [Bool.or_eq_true, decide_eq_true_eq, beq_iff_eq, not_or] at hc
      refine Took.head ?_
      unfold lex
      rw [if_neg hc.1.1, if_neg hc.1.2, if_neg hc.2]
      rfl
  · cases h

theorem took_string {n : Nat} {s r t : Str} (h : readString n s = some (t, r)) : Took .str .out s r := by
  induction n generalizing s t with
  | zero => cases h
  | succ n ih =>
    unfold readString at h
    split at h
    · cases ‹_ = 0›
    · simp only [Option.some.injEq, Prod.mk.injEq] at h
      obtain ⟨-, rfl⟩ := h
      exact Took.head rfl
    · simp only [Option.bind_eq_bind, Option.bind_eq_some_iff, Option.pure_def, Option.some.injEq, Prod.mk.injEq] at h
      obtain ⟨⟨b, r1⟩, h1, ⟨t1, r2⟩, h2, -, rfl⟩ := h
      cases ‹_ + 1 = _›
      exact (took_char h1).trans (ih h2)

theorem took_digits {s d r : Str} (h : readDigits s = some (d, r)) : Took .out .out s r := by
  unfold readDigits at h
  simp only at h
  split at h
  · cases h
  · simp only [Option.some.injEq, Prod.mk.injEq] at h
    obtain ⟨-, rfl⟩ := h
    refine ⟨s.takeWhile isDec, List.takeWhile_append_dropWhile.symm, lex_free fun c hc => ?_⟩
    have : isDec c = true := by
      have := List.all_takeWhile (p := isDec) (l := s)
      exact List.all_eq_true.1 this c hc
    rintro rfl
    exact absurd this (by decide)

theorem took_number {s r : Str} {v : JVal} (h : readNumber s = some (v, r)) : Took .out .out s r := by
  unfold readNumber at h
  simp only [Option.bind_eq_some_iff] at h
  obtain ⟨⟨i, s1⟩, h1, h⟩ := h
  simp only at h
  split at h
  · cases h
  simp only [Option.bind_eq_some_iff, Option.some.injEq, Prod.mk.injEq] at h
  obtain ⟨⟨f, s2⟩, h2, ⟨e, s3⟩, h3, -, rfl⟩ := h
  have g1 : Took .out .out s (readSign s).2 := by
    unfold readSign
    split
    · exact Took.head rfl
    · exact .refl _ _
  have g2 : Took .out .out s1 s2 := by
    unfold readFraction at h2
    split at h2
    · exact (Took.head (b := .out) rfl).trans (took_digits h2)
    · simp only [Option.some.injEq, Prod.mk.injEq] at h2
      obtain ⟨-, rfl⟩ := h2
      exact .refl _ _
  have g : ∀ {x : Str} {e : Int} {y : Str}, readExponent.signed x = some (e, y) → Took .out .out x y := by
    intro x e y h
    unfold readExponent.signed at h
    split at h <;> rw [Option.map_eq_some_iff] at h <;> obtain ⟨⟨d, r⟩, h, h'⟩ := h <;>
      simp only [Prod.mk.injEq] at h' <;> obtain ⟨-, rfl⟩ := h'
    · exact (Took.head (b := .out) rfl).trans (took_digits h)
    · exact (Took.head (b := .out) rfl).trans (took_digits h)
    · exact took_digits h
  have g3 : Took .out .out s2 s3 := by
    simp only at h3
    unfold readExponent at h3
    split at h3
    · exact (Took.head (b := .out) rfl).trans (g h3)
    · exact (Took.head (b := .out) rfl).trans (g h3)
    · simp only [Option.some.injEq, Prod.mk.injEq] at h3
      obtain ⟨-, rfl⟩ := h3
      exact .refl _ _
  exact g1.trans ((took_digits h1).trans (g2.trans g3))

theorem took_all (n : Nat) : (∀ s v r, readValue n s = some (v, r) → Took .out .out s r) ∧
    (∀ s v r, readElements n s = some (v, r) → Took .out .out s r) ∧ ∀ s v r, readMembers n s = some (v, r) → Took .out .out s r := by
  induction n with
  | zero =>
    refine ⟨?_, ?_, ?_⟩ <;> intro s v r h
    · unfold readValue at h; cases h
    · unfold readElements at h; cases h
    · unfold readMembers at h; cases h
  | succ n ih =>
    obtain ⟨ih1, ih2, ih3⟩ := ih
    refine ⟨?_, ?_, ?_⟩ <;> intro s v r h
    · unfold readValue at h
      split at h
      · rename_i rest
        refine (Took.head (b := .out) rfl).trans ((took_skip rest).trans ?_)
        split at h
        · rename_i h1
          rw [h1]
          simp only [Option.some.injEq, Prod.mk.injEq] at h
          obtain ⟨-, rfl⟩ := h
          exact Took.head rfl
        · rw [Option.map_eq_some_iff] at h
          obtain ⟨⟨ms, r'⟩, h1, h⟩ := h
          simp only [Prod.mk.injEq] at h
          obtain ⟨-, rfl⟩ := h
          exact ih3 _ _ _ h1
      · rename_i rest
        refine (Took.head (b := .out) rfl).trans ((took_skip rest).trans ?_)
        split at h
        · rename_i h1
          rw [h1]
          simp only [Option.some.injEq, Prod.mk.injEq] at h
          obtain ⟨-, rfl⟩ := h
          exact Took.head rfl
        · rw [Option.map_eq_some_iff] at h
          obtain ⟨⟨ms, r'⟩, h1, h⟩ := h
          simp only [Prod.mk.injEq] at h
          obtain ⟨-, rfl⟩ := h
          exact ih2 _ _ _ h1
      · rw [Option.map_eq_some_iff] at h
        obtain ⟨⟨ms, r'⟩, h1, h⟩ := h
        simp only [Prod.mk.injEq] at h
        obtain ⟨-, rfl⟩ := h
        exact (Took.head (b := .str) rfl).trans (took_string h1)
      · simp only [Option.some.injEq, Prod.mk.injEq] at h
        obtain ⟨-, rfl⟩ := h
        exact ⟨b! "null", rfl, rfl⟩
      · simp only [Option.some.injEq, Prod.mk.injEq] at h
        obtain ⟨-, rfl⟩ := h
        exact ⟨b! "true", rfl, rfl⟩
      · simp only [Option.some.injEq, Prod.mk.injEq] at h
        obtain ⟨-, rfl⟩ := h
        exact ⟨b! "false", rfl, rfl⟩
      · exact took_number h
    · unfold readElements at h
      simp only [Option.bind_eq_bind, Option.bind_eq_some_iff] at h
      obtain ⟨⟨w, r1⟩, h1, h⟩ := h
      refine (ih1 _ _ _ h1).trans ((took_skip r1).trans ?_)
      simp only at h
      split at h
      · rename_i h2
        rw [h2]
        simp only [Option.bind_eq_some_iff, Option.pure_def, Option.some.injEq, Prod.mk.injEq] at h
        obtain ⟨⟨vs, r2⟩, h3, -, rfl⟩ := h
        exact (Took.head (b := .out) rfl).trans ((took_skip _).trans (ih2 _ _ _ h3))
      · rename_i h2
        rw [h2]
        simp only [Option.pure_def, Option.some.injEq, Prod.mk.injEq] at h
        obtain ⟨-, rfl⟩ := h
        exact Took.head rfl
      · cases h
    · unfold readMembers at h
      simp only at h
      split at h
      · simp only [Option.bind_eq_bind, Option.bind_eq_some_iff] at h
        obtain ⟨⟨k, r1⟩, h1, h⟩ := h
        refine (Took.head (b := .str) rfl).trans ((took_string h1).trans ((took_skip r1).trans ?_))
        simp only at h
        split at h
        · rename_i r2 h2
          rw [h2]
          simp only [Option.bind_eq_some_iff] at h
          obtain ⟨⟨w, r3⟩, h3, h⟩ := h
          refine (Took.head (b := .out) rfl).trans ((took_skip r2).trans ((ih1 _ _ _ h3).trans ((took_skip r3).trans ?_)))
          simp only at h
          split at h
          · rename_i h4
            rw [h4]
            simp only [Option.bind_eq_some_iff, Option.pure_def, Option.some.injEq, Prod.mk.injEq] at h
            obtain ⟨⟨vs, r5⟩, h5, -, rfl⟩ := h
            exact (Took.head (b := .out) rfl).trans ((took_skip _).trans (ih3 _ _ _ h5))
          · rename_i h4
            rw [h4]
            simp only [Option.pure_def, Option.some.injEq, Prod.mk.injEq] at h
            obtain ⟨-, rfl⟩ := h
            exact Took.head rfl
          · cases h
        · cases h
      · cases h

/-- A text with a control character in a string is no JSON. -/
theorem lex_json {s : Str} (h : lex .out s = none) : readJson s = none := by
  unfold readJson
  split
  · rename_i v r hv
    split
    · rename_i hr
      obtain ⟨p, hp, h1⟩ := (took_skip s).trans (((took_all _).1 _ _ _ hv).trans (took_skip r))
      rw [List.isEmpty_iff.1 hr, List.append_nil] at hp
      rw [hp, h1] at h
      cases h
    · rfl
  · rfl

/-! ### Pieces -/

/-- A piece of a text that begins and ends outside strings, and has no control characters in strings if `P`. -/
def LexPiece (P : Prop) (x : Str) : Prop := (P → lex .out x = some .out) ∧ (¬ P → lex .out x = none)

theorem LexPiece.congr {P Q : Prop} {x : Str} (h : LexPiece P x) (e : P ↔ Q) : LexPiece Q x := by rw [← propext e]; exact h

theorem LexPiece.append {P Q : Prop} {x y : Str} (h1 : LexPiece P x) (h2 : LexPiece Q y) : LexPiece (P ∧ Q) (x ++ y) := by
  refine ⟨fun h => ?_, fun h => ?_⟩ <;> rw [lex_append]
  · rw [h1.1 h.1]; exact h2.1 h.2
  · by_cases hp : P
    · rw [h1.1 hp]; exact h2.2 fun hq => h ⟨hp, hq⟩
    · rw [h1.2 hp]; rfl

theorem LexPiece.free {w : Str} (h : ∀ c ∈ w, c ≠ 34) : LexPiece True w := ⟨fun _ => lex_free h, fun h => absurd trivial h⟩

theorem LexPiece.lit {w : Str} (h : lex .out w = some .out) : LexPiece True w := ⟨fun _ => h, fun h => absurd trivial h⟩

theorem lex_escape (s : Str) : lex .str (escape s) = if NoControl s then some .str else none := by
  induction s with
  | nil => rw [if_pos (by intro c hc; cases hc)]; rfl
  | cons c s ih =>
    have e : NoControl (c :: s) ↔ (32 ≤ c ∨ c = 9) ∧ NoControl s := by
      unfold NoControl
      rw [List.forall_mem_cons]
    rw [escape_cons, lex_append]
    have key : lex .str (if c = 9 then b! "\\t" else if c = 92 then b! "\\\\" else if c = 34 then b! "\\\"" else [c]) =
        if 32 ≤ c ∨ c = 9 then some .str else none := by
      split
      · rename_i h; rw [if_pos (.inr h)]; rfl
      rename_i h9
      split
      · rename_i h; rw [if_pos (.inl (by rw [h]; decide))]; rfl
      rename_i h92
      split
      · rename_i h; rw [if_pos (.inl (by rw [h]; decide))]; rfl
      rename_i h34
      unfold lex
      by_cases h : c < 32
      · rw [if_pos h, if_neg]
        intro h'
        rcases h' with h' | h'
        · exact absurd h (UInt8.not_lt.2 h')
        · exact h9 h'
      · rw [if_neg h, if_neg h34, if_neg h92, if_pos (.inl (UInt8.not_lt.1 h))]
        rfl
    rw [key]
    by_cases h : 32 ≤ c ∨ c = 9
    · rw [if_pos h]
      simp only [Option.bind_some, ih, e, h, true_and]
    · rw [if_neg h, if_neg (fun h' => h (e.1 h').1)]
      rfl

theorem LexPiece.str (s : Str) : LexPiece (NoControl s) (strValue s) := by
  have h : lex .out (strValue s) = if NoControl s then some .out else none := by
    unfold strValue
    rw [lex_append, lex_append, show lex .out dq = some .str from rfl]
    simp only [Option.bind_some, lex_escape]
    split <;> rfl
  exact ⟨fun hs => by rw [h, if_pos hs], fun hs => by rw [h, if_neg hs]⟩

theorem LexPiece.key (s : Str) : LexPiece (NoControl s) (keyNameEsc s) := by
  have : keyNameEsc s = strValue s ++ b! ": " := by
    unfold keyNameEsc strValue
    rw [List.append_assoc _ dq]
    rfl
  rw [this]
  exact ((LexPiece.str s).append (.free (by decide))).congr (by simp)

/-- An opcode is written as it is. -/
theorem LexPiece.raw {s : Str} (h : ∀ c ∈ s, c ≠ 34 ∧ c ≠ 92) : LexPiece (∀ c ∈ s, 32 ≤ c) (dq ++ s ++ dq) := by
  have key : lex .str s = if ∀ c ∈ s, 32 ≤ c then some .str else none := by
    induction s with
    | nil => rw [if_pos (by intro c hc; cases hc)]; rfl
    | cons c s ih =>
      have hc := h c (by simp)
      simp only [lex, hc.1, hc.2, if_false, ih fun c hc => h c (by simp [hc]), List.forall_mem_cons]
      by_cases h1 : c < 32
      · rw [if_pos h1, if_neg]
        exact fun h' => absurd h1 (UInt8.not_lt.2 h'.1)
      · rw [if_neg h1]
        simp only [UInt8.not_lt.1 h1, true_and]
  have h : lex .out (dq ++ s ++ dq) = if ∀ c ∈ s, 32 ≤ c then some .out else none := by
    rw [lex_append, lex_append, show lex .out dq = some .str from rfl]
    simp only [Option.bind_some, key]
    split <;> rfl
  exact ⟨fun hs => by rw [h, if_pos hs], fun hs => by rw [h, if_neg hs]⟩

theorem LexPiece.sep {w : Str} (hw : ∀ c ∈ w, c ≠ 34) {α : Type} (g : α → Str) (P : α → Prop) (xs : List α)
    (h : ∀ x ∈ xs, LexPiece (P x) (g x)) : LexPiece (∀ x ∈ xs, P x) (sepBy w (xs.map g)) := by
  induction xs with
  | nil => exact ⟨fun _ => rfl, fun h => absurd (fun x hx => by cases hx) h⟩
  | cons x xs ih =>
    have ih := ih fun y hy => h y (by simp [hy])
    have hx := h x (by simp)
    cases xs with
    | nil => exact hx.congr (by simp)
    | cons y ys =>
      simp only [List.map_cons, sepBy] at ih ⊢
      exact ((hx.append (.free hw)).append ih).congr (by simp)

/-- A number. -/
theorem LexPiece.num (z : Int) : LexPiece True (intToDec z) := by
  refine .free fun c hc => ?_
  rw [intToDec_eq] at hc
  rcases List.mem_append.1 hc with hc | hc
  · split at hc
    · rw [List.mem_singleton.1 hc]; decide
    · cases hc
  · have := (natToDec_ok z.natAbs).1 c hc
    rintro rfl
    exact absurd this (by decide)

theorem mem_group3 {c : Byte} {s : Str} (h : c ∈ group3 s) : c ∈ s ∨ c = 44 := by
  fun_induction group3 s with
  | case1 a b d e r ih =>
    simp only [List.mem_cons] at h ih ⊢
    rcases h with h | h | h | h | h
    · exact .inl (.inl h)
    · exact .inl (.inr (.inl h))
    · exact .inl (.inr (.inr (.inl h)))
    · exact .inr h
    · rcases ih h with h | h
      · exact .inl (.inr (.inr (.inr h)))
      · exact .inr h
  | case2 r => exact .inl h

theorem LexPiece.group (z : Int) : LexPiece True (groupDec z) := by
  refine .free fun c hc => ?_
  unfold groupDec at hc
  rcases List.mem_append.1 hc with hc | hc
  · split at hc
    · rw [List.mem_singleton.1 hc]; decide
    · cases hc
  · rcases mem_group3 (List.mem_reverse.1 hc) with hc | rfl
    · have := (natToDec_ok z.natAbs).1 c (List.mem_reverse.1 hc)
      rintro rfl
      exact absurd this (by decide)
    · decide

theorem LexPiece.ite {P Q : Prop} {x y : Str} (b : Prop) [Decidable b] (h1 : b → LexPiece P x) (h2 : ¬ b → LexPiece Q y) :
    LexPiece ((b → P) ∧ (¬ b → Q)) (if b then x else y) := by
  split
  · rename_i h; exact (h1 h).congr (by simp [h])
  · rename_i h; exact (h2 h).congr (by simp [h])

end AsmParser
