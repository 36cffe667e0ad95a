/-
Binary mode on listings that differ only in the lines about the source, or in the bytes of the instructions.
-/
import Verif.Proofs.Fewer
import Verif.Proofs.ObjRead
import Verif.Spec.LineInfo

namespace AsmParser

/-! ### Lines that leave no trace -/

/-- Two runs that show the same up to `φ`; the first one also has lines that do nothing. -/
inductive SameShown {α : Type} (φ : AsmLine → α) : (es es' : List (Bool × Option AsmLine)) → Prop
  | nil : SameShown φ [] []
  | cons {x o o' es es'} : o.map φ = o'.map φ → SameShown φ es es' → SameShown φ ((x, o) :: es) ((x, o') :: es')
  | skip {es es'} : SameShown φ es es' → SameShown φ ((false, none) :: es) es'

structure SamePages {α : Type} (φ : AsmLine → α) (b b' : Pages) : Prop where
  done : b.done.map φ = b'.done.map φ
  cur : b.cur.map φ = b'.cur.map φ
  full : b.full = b'.full
  extra : b.extra = b'.extra

theorem SamePages.lines {α : Type} {φ : AsmLine → α} {b b' : Pages} (h : SamePages φ b b') : b.lines.map φ = b'.lines.map φ := by
  simp only [Pages.lines, List.map_append, h.done, h.cur]

theorem any_of_map {α : Type} {φ : AsmLine → α} {p : AsmLine → Bool} (hp : ∀ l l', φ l = φ l' → p l = p l') :
    ∀ {ls ls' : List AsmLine}, ls.map φ = ls'.map φ → ls.any p = ls'.any p := by
  intro ls
  induction ls with
  | nil => intro ls' h; cases ls' with
    | nil => rfl
    | cons => cases h
  | cons l ls ih =>
    intro ls' h
    cases ls' with
    | nil => cases h
    | cons l' ls' =>
      simp only [List.map_cons, List.cons.injEq] at h
      rw [List.any_cons, List.any_cons, hp _ _ h.1, ih h.2]

theorem starts_of_map {α : Type} {φ : AsmLine → α} (hp : ∀ l l', φ l = φ l' → l.isLabel = l'.isLabel)
    {ls ls' : List AsmLine} (h : ls.map φ = ls'.map φ) : startsFunction ls = startsFunction ls' := by
  cases ls with
  | nil => cases ls' with
    | nil => rfl
    | cons => cases h
  | cons l ls =>
    cases ls' with
    | nil => cases h
    | cons l' ls' =>
      simp only [List.map_cons, List.cons.injEq] at h
      simp [startsFunction, hp _ _ h.1]

theorem SamePages.close {α : Type} {φ : AsmLine → α} {lib : Bool} (h1 : ∀ l l', φ l = φ l' → l.isLabel = l'.isLabel)
    (h3 : lib = true → ∀ l l', φ l = φ l' → l.source.isUsercode = l'.source.isUsercode)
    {b b' : Pages} (h : SamePages φ b b') : SamePages φ (b.close lib) (b'.close lib) := by
  have hc : (lib && startsFunction b.cur && !hasUserLine b.cur) = (lib && startsFunction b'.cur && !hasUserLine b'.cur) := by
    cases lib with
    | false => rfl
    | true =>
      rw [starts_of_map h1 h.cur]
      unfold hasUserLine
      rw [any_of_map (p := fun l => l.source.isUsercode) (h3 rfl) h.cur]
  unfold Pages.close
  rw [hc]
  split
  · exact ⟨h.done, rfl, h.full, h.extra⟩
  · exact ⟨by simp [h.done, h.cur], rfl, h.full, h.extra⟩

theorem SamePages.add {α : Type} {φ : AsmLine → α} (h1 : ∀ l l', φ l = φ l' → l.isLabel = l'.isLabel ∧ l.label = l'.label)
    {b b' : Pages} (h : SamePages φ b b') {l l' : AsmLine} (hl : φ l = φ l') : SamePages φ (b.add l) (b'.add l') := by
  have hn : b.lines.length = b'.lines.length := by simpa using congrArg List.length h.lines
  unfold Pages.add
  rw [hn]
  split
  · exact ⟨h.done, by simp [h.cur, hl], h.full, h.extra⟩
  · refine ⟨h.done, by simp [h.cur], rfl, ?_⟩
    dsimp only
    rw [(h1 _ _ hl).1, (h1 _ _ hl).2]

theorem same_pages {α : Type} {φ : AsmLine → α} {lib : Bool} (h1 : ∀ l l', φ l = φ l' → l.isLabel = l'.isLabel ∧ l.label = l'.label)
    (h3 : lib = true → ∀ l l', φ l = φ l' → l.source.isUsercode = l'.source.isUsercode)
    {es es' : List (Bool × Option AsmLine)} (h : SameShown φ es es') : ∀ {b b' : Pages}, SamePages φ b b' →
    SamePages φ (b.all lib es) (b'.all lib es') := by
  induction h with
  | nil => intro b b' h; exact h
  | skip _ ih =>
    intro b b' h
    have : b.next lib false none = b := by unfold Pages.next; split <;> rfl
    unfold Pages.all
    rw [List.foldl_cons, this]
    exact ih h
  | @cons x o o' es es' ho _ ih =>
    intro b b' h
    refine ih (b := b.next lib x o) (b' := b'.next lib x o') ?_
    unfold Pages.next
    rw [← h.full]
    split
    · exact h
    · have hc : SamePages φ (if x = true then b.close lib else b) (if x = true then b'.close lib else b') := by
        split
        · exact h.close (fun l l' e => (h1 l l' e).1) h3
        · exact h
      cases o with
      | none => cases o' with
        | none => exact hc
        | some => cases ho
      | some l => cases o' with
        | none => cases ho
        | some l' =>
          simp only [Option.map_some, Option.some.injEq] at ho
          exact hc.add h1 ho

theorem labelTable_of_map {α : Type} {φ : AsmLine → α} (h1 : ∀ l l', φ l = φ l' → l.isLabel = l'.isLabel ∧ l.label = l'.label) :
    ∀ {ls ls' : List AsmLine} (n : Nat), ls.map φ = ls'.map φ → labelTable n ls = labelTable n ls' := by
  intro ls
  induction ls with
  | nil => intro ls' n h; cases ls' with
    | nil => rfl
    | cons => cases h
  | cons l ls ih =>
    intro ls' n h
    cases ls' with
    | nil => cases h
    | cons l' ls' =>
      simp only [List.map_cons, List.cons.injEq] at h
      rw [labelTable, labelTable, (h1 _ _ h.1).1, (h1 _ _ h.1).2, ih _ h.2]

/-! ### Lines about the source -/

theorem hexDigit_iff {c : Byte} : HexDigit c ↔ isHex c = true := by
  simp only [HexDigit, isHex, Bool.or_eq_true, Bool.and_eq_true, decide_eq_true_eq]
  constructor <;> rintro (h | h) <;> first | exact .inl h | exact .inr h

theorem marginOnly_drop {m : Str} (hm : MarginOnly m) (t : Str) : withoutMargin (m ++ t) = withoutMargin t := by
  unfold withoutMargin
  exact List.dropWhile_append_of_pos (fun c hc => by rcases hm c hc with rfl | rfl | rfl <;> decide)

theorem oneWord_parts {m w r : Str} {d : Byte} (hm : MarginOnly m) (hw : OneWord w) (hd : d = c! ':' ∨ d = c! '/') :
    leadWord (m ++ w ++ d :: r) = w.filter (· != c! ';') ∧ afterWord (m ++ w ++ d :: r) = d :: r := by
  have hd1 : inLeadWord d = false := by rcases hd with rfl | rfl <;> decide
  have hd2 : (isWhitespace d || d == c! ';') = false := by rcases hd with rfl | rfl <;> decide
  have hin : ∀ c ∈ w, inLeadWord c = true := by
    intro c hc
    obtain ⟨h1, h2, h3, h4⟩ := hw c hc
    simp only [inLeadWord, isWhitespace, Bool.and_eq_true, Bool.not_eq_true', Bool.or_eq_false_iff, beq_eq_false_iff_ne, bne_iff_ne]
    exact ⟨⟨⟨h1, h2⟩, h3⟩, h4⟩
  unfold leadWord afterWord
  rw [List.append_assoc, marginOnly_drop hm]
  clear hw
  induction w with
  | nil =>
    unfold withoutMargin
    simp [hd1, hd2]
  | cons c w ih =>
    have hc := hin c (by simp)
    have hcw : isWhitespace c = false := by
      simp only [inLeadWord, Bool.and_eq_true, Bool.not_eq_true'] at hc; exact hc.1.1
    by_cases hs : c = c! ';'
    · subst hs
      have e : withoutMargin (c! ';' :: w ++ d :: r) = withoutMargin (w ++ d :: r) := by
        unfold withoutMargin
        rw [List.cons_append, List.dropWhile_cons_of_pos (by decide)]
      rw [e]
      obtain ⟨h1, h2⟩ := ih fun c hc => hin c (by simp [hc])
      exact ⟨by rw [h1]; simp, h2⟩
    · have e : withoutMargin (c :: w ++ d :: r) = c :: w ++ d :: r := by
        unfold withoutMargin
        rw [List.cons_append, List.dropWhile_cons_of_neg (by simp [hcw, hs])]
      rw [e]
      constructor
      · rw [List.takeWhile_append_of_pos hin, List.takeWhile_cons_of_neg (by simp [hd1]), List.append_nil]
      · rw [List.dropWhile_append_of_pos hin, List.dropWhile_cons_of_neg (by simp [hd1])]

theorem readLineNo_source (r : Str) : ∀ f n, ∃ file no e, readLineNo f n r = .source file no e := by
  induction r with
  | nil => intro f n; exact ⟨_, _, _, rfl⟩
  | cons c r ih =>
    intro f n
    rw [readLineNo]
    split
    · exact ih _ _
    · split
      · exact ⟨_, _, _, rfl⟩
      · exact ih _ _

theorem sourceLine_source {a b : Str} (hb : c! ':' ∈ b) : ∃ file no e, sourceLine (a ++ c! '/' :: b) = .source file no e := by
  unfold sourceLine
  cases h : List.dropWhile (fun x => decide (x ≠ c! ':')) (a ++ c! '/' :: b) with
  | nil =>
    have e := List.takeWhile_append_dropWhile (p := fun x => decide (x ≠ c! ':')) (l := a ++ c! '/' :: b)
    rw [h, List.append_nil] at e
    have := takeWhile_forall (fun x => decide (x ≠ c! ':')) (a ++ c! '/' :: b) (c! ':') (by rw [e]; simp [hb])
    simp at this
  | cons x r => exact readLineNo_source r _ _

/-- Such a line has no effect except on the source. -/
theorem lineInfo_kind {l : Str} (h : LineInfo l) (ign : Bool) :
    (∃ file no e, lineKind ign l = .source file no e) ∨ (ign = false ∧ lineKind ign l = .remark) ∨
      (ign = true ∧ ∃ w, lineKind ign l = .code (some w) [] [] []) := by
  cases h with
  | @position m w b hm hw hb =>
    obtain ⟨h1, h2⟩ := oneWord_parts (r := b) hm hw (.inr rfl)
    left
    unfold lineKind
    rw [h1, h2]
    exact sourceLine_source hb
  | @name m w hm hw hx =>
    obtain ⟨h1, h2⟩ := oneWord_parts (r := []) hm hw (.inl rfl)
    right
    unfold lineKind
    rw [h1, h2]
    obtain ⟨c, hc, hc1, hc2⟩ := hx
    have hmem : c ∈ w.filter (· != c! ';') := by simp [hc, hc2]
    have hne : w.filter (· != c! ';') ≠ [] := by intro e; rw [e] at hmem; cases hmem
    have hnh : (w.filter (· != c! ';')).all isHex = false := by
      rw [List.all_eq_false]
      exact ⟨c, hmem, by rw [← hexDigit_iff]; exact hc1⟩
    cases ign with
    | false =>
      left
      refine ⟨rfl, ?_⟩
      simp only [hnh, hne, Bool.or_false, Bool.false_eq_true, ↓reduceIte]
      rw [if_neg (by decide)]
    | true =>
      right
      refine ⟨rfl, w.filter (· != c! ';'), ?_⟩
      simp only [hne, Bool.true_or, ↓reduceIte]
      rw [if_neg (by decide)]
      rfl

theorem withoutInfo_shown {R : Reading} {drop : Str → Bool} {ls ls' : List Str} (h : WithoutInfo ls ls')
    (hcr : ∀ l ∈ ls, (13 : Byte) ∉ l) : ∀ {c c' : Carry}, { c with source := {} } = { c' with source := {} } →
    SameShown unplaced (happenings R drop c ls) (happenings R drop c' ls') := by
  induction h with
  | nil => intro c c' _; exact .nil
  | @same l ls ls' _ ih =>
    intro c c' hc
    injection hc with h1 h2 h3 h4
    rw [happenings, happenings, ← h3]
    generalize lineKind c.ign (l.filter (· != 13)) = k
    refine .cons ?_ (ih (fun l hl => hcr l (by simp [hl])) ?_)
    · cases k with
      | noSection t => simp only [Carry.shown, ← h3]; split <;> simp [unplaced]
      | header a t => simp only [Carry.shown, ← h3, h1]; split <;> simp [unplaced]
      | code a bs f r => simp only [Carry.shown, ← h3, h1, h4]; split <;> simp [unplaced]
      | _ => rfl
    · obtain ⟨s, src, i, o⟩ := c
      obtain ⟨s', src', i', o'⟩ := c'
      dsimp only at h1 h3 h4
      subst h1 h3 h4
      cases k with
      | header a t => simp only [Carry.next]; split <;> rfl
      | _ => rfl
  | @info l ls ls' hl _ ih =>
    intro c c' hc
    have hcr' := hcr l (by simp)
    have e : l.filter (· != 13) = l := List.filter_eq_self.2 fun x hx => by
      simp only [bne_iff_ne]; rintro rfl; exact hcr' hx
    rw [happenings, e]
    have ih := @ih fun l hl => hcr l (by simp [hl])
    rcases lineInfo_kind hl c.ign with ⟨file, no, x, hk⟩ | ⟨hi, hk⟩ | ⟨hi, w, hk⟩
    · rw [hk]
      exact .skip (ih hc)
    · rw [hk]
      exact .skip (ih hc)
    · rw [hk]
      simp only [Carry.shown, hi, Bool.true_or, ↓reduceIte]
      refine .skip (ih ?_)
      rw [← hc]
      rfl

/-! ### Bytes of instructions -/

theorem readBytes_blanks {bs : Str} (h : ∀ c ∈ bs, c = c! ' ' ∨ c = 9) (r : Str) : readBytes [] (bs ++ r) = readBytes [] r := by
  induction bs with
  | nil => rfl
  | cons c bs ih =>
    rw [List.cons_append, readBytes, if_pos (by rcases h c (by simp) with rfl | rfl <;> decide), if_pos rfl]
    exact ih fun c hc => h c (by simp [hc])

/-- Digits and single blanks are collected. -/
theorem readBytes_run (r : Str) : ∀ {w t : Str}, (∀ c ∈ w, HexDigit c ∨ c = c! ' ' ∨ c = 9) →
    (∀ a b c, w = a ++ c! ' ' :: c :: b → HexDigit c) →
    (t = [] ∨ t.getLast? = some c! ' ' → ∀ c ∈ w.head?, HexDigit c) → readBytes t (w ++ r) = readBytes (t ++ w) r := by
  intro w
  induction w with
  | nil => intro t _ _ _; simp
  | cons c w ih =>
    intro t h1 h2 h3
    have next : ∀ t, (c = c! ' ' ∨ t ≠ []) → t.getLast? = some c → readBytes t (w ++ r) = readBytes (t ++ w) r := by
      intro t _ ht
      refine ih (fun c hc => h1 c (by simp [hc])) (fun a b x e => h2 (c :: a) b x (by simp [e])) ?_
      rintro (e | e)
      · subst e; simp at ht
      · rw [ht] at e
        simp only [Option.some.injEq] at e
        intro x hx
        cases w with
        | nil => simp at hx
        | cons y w =>
          simp only [List.head?_cons, Option.mem_def, Option.some.injEq] at hx
          subst hx
          exact h2 [] w y (by simp [e])
    rw [List.cons_append, readBytes]
    by_cases hw : isWhitespace c = true
    · have hnh : ¬ HexDigit c := by
        rw [hexDigit_iff]; simp only [isWhitespace, Bool.or_eq_true, beq_iff_eq] at hw; rcases hw with rfl | rfl <;> decide
      have ht : ¬ (t = [] ∨ t.getLast? = some c! ' ') := fun e => hnh (h3 e c (by simp))
      rw [if_pos hw, if_neg (fun e => ht (.inl e)), if_neg (fun e => ht (.inr e)), next _ (.inr (by simp)) (by simp)]
      simp
    · have hh : HexDigit c := by
        rcases h1 c (by simp) with h | rfl | rfl
        · exact h
        · exact absurd rfl hw
        · exact absurd rfl hw
      have hR : c ≠ c! 'R' := by rintro rfl; rw [hexDigit_iff] at hh; exact absurd hh (by decide)
      rw [if_neg hw, if_neg hR, if_pos (hexDigit_iff.1 hh), next _ (.inr (by simp)) (by simp)]
      simp

theorem readRefs_blanks {R : Reading} {drop : Str → Bool} {op : Option Nat} {bs : Str} (h : ∀ c ∈ bs, c = c! ' ' ∨ c = 9) (r : Str) :
    readRefs R drop op [] (bs ++ r) = readRefs R drop op [] r := by
  induction bs with
  | nil => rfl
  | cons c bs ih =>
    have ih := ih fun c hc => h c (by simp [hc])
    have hc := h c (by simp)
    have e : isWhitespace c = true := by rcases hc with rfl | rfl <;> rfl
    rw [List.cons_append, readRefs.eq_def]
    simp only [e, decide_true, Bool.and_self, ↓reduceIte]
    rw [if_neg (by rcases hc with rfl | rfl <;> decide), if_neg (by rcases hc with rfl | rfl <;> decide)]
    cases op with
    | none => exact ih
    | some k =>
      dsimp only
      rw [if_neg (by rcases hc with rfl | rfl <;> decide)]
      exact ih

/-- Other characters begin and end no references. -/
theorem readRefs_run {R : Reading} {drop : Str → Bool} {op : Option Nat} (r : Str) : ∀ {w t : Str},
    (∀ c ∈ w, c ≠ c! '#' ∧ c ≠ c! '<' ∧ c ≠ c! '>' ∧ c ≠ c! '+') → (t = [] → ∀ c ∈ w.head?, isWhitespace c = false) →
    readRefs R drop op t (w ++ r) = readRefs R drop op (t ++ w) r := by
  intro w
  induction w with
  | nil => intro t _ _; simp
  | cons c w ih =>
    intro t h1 h2
    obtain ⟨a1, a2, a3, a4⟩ := h1 c (by simp)
    have e : (if t = [] && isWhitespace c then ([] : Str) else t ++ [c]) = t ++ [c] := by
      by_cases ht : t = []
      · simp [ht, h2 ht c (by simp)]
      · simp [ht]
    have ih := ih (t := t ++ [c]) (fun c hc => h1 c (by simp [hc])) (by simp)
    rw [List.cons_append, readRefs.eq_def]
    simp only [e]
    rw [if_neg a1, if_neg a2]
    cases op with
    | none => rw [ih]; simp
    | some k =>
      dsimp only
      rw [if_neg (by simp [a3, a4]), ih]
      simp

theorem hexDigit_word {a : Str} (h : ∀ c ∈ a, HexDigit c) : OneWord a ∧ a.filter (· != c! ';') = a ∧ a.all isHex = true := by
  have hb : ∀ c : Byte, isHex c = true → c ≠ c! ' ' ∧ c ≠ 9 ∧ c ≠ c! ':' ∧ c ≠ c! '/' ∧ c ≠ c! ';' := by
    intro c hc
    refine ⟨?_, ?_, ?_, ?_, ?_⟩ <;> (rintro rfl; exact absurd hc (by decide))
  have h' : ∀ c ∈ a, isHex c = true := fun c hc => hexDigit_iff.1 (h c hc)
  refine ⟨fun c hc => ?_, List.filter_eq_self.2 fun c hc => ?_, List.all_eq_true.2 h'⟩
  · obtain ⟨h1, h2, h3, h4, -⟩ := hb c (h' c hc); exact ⟨h1, h2, h3, h4⟩
  · simpa using (hb c (h' c hc)).2.2.2.2

theorem lineKind_instr {m a X : Str} (hm : MarginOnly m) (ha : ∀ c ∈ a, HexDigit c) (hne : a ≠ []) (ign : Bool) :
    lineKind ign (m ++ a ++ c! ':' :: X) = .code (some a) (readBytes [] X).1 (readBytes [] X).2.1 (readBytes [] X).2.2 := by
  obtain ⟨h1, h2, h3⟩ := hexDigit_word ha
  obtain ⟨e1, e2⟩ := oneWord_parts (r := X) hm h1 (.inl rfl)
  unfold lineKind
  rw [e1, e2, h2]
  simp only [h3, hne, Bool.or_true, ↓reduceIte]
  rw [if_neg (by decide)]

/-- An instruction with and without its bytes. -/
theorem bytes_kinds {m a bs w bs' t : Str} (hm : MarginOnly m) (ha : ∀ c ∈ a, HexDigit c) (hne : a ≠ [])
    (hbs : ∀ c ∈ bs ++ bs', c = c! ' ' ∨ c = 9) (hbs' : bs' ≠ []) (hw : RawBytes w) (ht : NotBytes t) (ign : Bool) :
    ∃ by' r1 f2 r2, lineKind ign (m ++ a ++ c! ':' :: (bs ++ w ++ c! ' ' :: (bs' ++ t))) = .code (some a) by' [] r1 ∧
      lineKind ign (m ++ a ++ c! ':' :: (bs ++ t)) = .code (some a) [] f2 r2 ∧ codeText [] r1 = codeText f2 r2 ∧
      ∀ (R : Reading) (drop : Str → Bool) (op : Option Nat), readRefs R drop op [] r1 = readRefs R drop op f2 r2 := by
  have hb1 : ∀ c ∈ bs, c = c! ' ' ∨ c = 9 := fun c hc => hbs c (by simp [hc])
  have hb2 : ∀ c ∈ bs', c = c! ' ' ∨ c = 9 := fun c hc => hbs c (by simp [hc])
  cases bs' with
  | nil => exact absurd rfl hbs'
  | cons y bs' =>
  have hy := hb2 y (by simp)
  have hb3 : ∀ c ∈ bs', c = c! ' ' ∨ c = 9 := fun c hc => hb2 c (by simp [hc])
  have e1 : readBytes [] (bs ++ w ++ c! ' ' :: (y :: bs' ++ t)) = (spaceWords (w ++ [c! ' ']), [], bs' ++ t) := by
    rw [List.append_assoc, readBytes_blanks hb1]
    have e : w ++ c! ' ' :: (y :: bs' ++ t) = (w ++ [c! ' ']) ++ (y :: bs' ++ t) := by simp
    rw [e, readBytes_run]
    · rw [List.nil_append, List.cons_append, readBytes, if_pos (by rcases hy with rfl | rfl <;> decide), if_neg (by simp), if_pos (by simp)]
    · intro c hc
      simp only [List.mem_append, List.mem_singleton] at hc
      rcases hc with hc | rfl
      · rcases hw.chars c hc with h | h
        · exact .inl h
        · exact .inr (.inl h)
      · exact .inr (.inl rfl)
    · intro a' b' c e
      have hl : (w ++ [c! ' ']).getLast? = (a' ++ c! ' ' :: c :: b').getLast? := by rw [e]
      rcases List.eq_nil_or_concat b' with rfl | ⟨b', z, rfl⟩
      · exfalso
        have e' : w ++ [c! ' '] = (a' ++ [c! ' ']) ++ [c] := by rw [e]; simp
        obtain ⟨e2, -⟩ := List.append_inj' e' rfl
        obtain ⟨x, hx, hh⟩ := hw.last
        rw [e2] at hx
        simp only [List.getLast?_append, List.getLast?_singleton, Option.some_or, Option.mem_def, Option.some.injEq] at hx
        subst hx
        rw [hexDigit_iff] at hh
        exact absurd hh (by decide)
      · have e' : w ++ [c! ' '] = (a' ++ c! ' ' :: c :: b') ++ [z] := by rw [e]; simp
        obtain ⟨e2, -⟩ := List.append_inj' e' rfl
        rcases hw.chars c (by rw [e2]; simp) with h | rfl
        · exact h
        · exact absurd e2 (hw.single _ _)
    · intro _ c hc
      obtain ⟨x, hx, hh⟩ := hw.first
      cases w with
      | nil => simp at hx
      | cons z w =>
        simp only [List.cons_append, List.head?_cons, Option.mem_def, Option.some.injEq] at hc hx
        rw [← hc, hx]; exact hh
  cases ht with
  | @intro h r x k1 k2 k3 k4 k5 =>
  have hx : ∀ d, d ∈ [c! ' ', 9, c! 'R', c! '<', c! '>', c! '+', c! '#'] → x ≠ d := k4
  have hxw : isWhitespace x = false := by simp [isWhitespace, hx (c! ' ') (by simp), hx 9 (by simp)]
  have e2 : readBytes [] (bs ++ (h ++ x :: r)) = ([], h ++ [x], r) := by
    rw [readBytes_blanks hb1, readBytes_run _ k1 k3 (fun _ => k2), List.nil_append, readBytes, if_neg (by simp [hxw]),
      if_neg (hx (c! 'R') (by simp)), if_neg (by rw [← hexDigit_iff]; exact k5)]
  have hhead : ∀ c ∈ (h ++ x :: r).head?, isWhitespace c = false := by
    intro c hc
    cases h with
    | nil => simp at hc; subst hc; exact hxw
    | cons z h =>
      simp at hc; subst hc
      have := k2 z (by simp)
      rw [hexDigit_iff] at this
      exact byte_forall (P := fun c => isHex c = true → isWhitespace c = false) (by decide +kernel) this
  refine ⟨spaceWords (w ++ [c! ' ']), bs' ++ (h ++ x :: r), h ++ [x], r, ?_, ?_, ?_, ?_⟩
  · rw [lineKind_instr hm ha hne, e1]
  · rw [lineKind_instr hm ha hne, e2]
  · unfold codeText dropBlanks
    rw [if_pos rfl, if_neg (by simp), List.dropWhile_append_of_pos (fun c hc => by rcases hb3 c hc with rfl | rfl <;> decide)]
    cases hq : h ++ x :: r with
    | nil => simp at hq
    | cons z q =>
      rw [hq] at hhead
      rw [List.dropWhile_cons_of_neg (by simp [hhead z (by simp)]), ← hq]
      simp
  · intro R drop op
    rw [readRefs_blanks hb3]
    have e : h ++ x :: r = (h ++ [x]) ++ r := by simp
    rw [e, readRefs_run, List.nil_append]
    · intro c hc
      simp only [List.mem_append, List.mem_singleton] at hc
      rcases hc with hc | rfl
      · refine ⟨?_, ?_, ?_, ?_⟩ <;>
          (rintro rfl; rcases k1 _ hc with h | h | h
           · rw [hexDigit_iff] at h; exact absurd h (by decide)
           · exact absurd h (by decide)
           · exact absurd h (by decide))
      · exact ⟨hx _ (by simp), hx _ (by simp), hx _ (by simp), hx _ (by simp)⟩
    · intro _ c hc
      refine hhead c ?_
      cases h <;> simpa using hc

theorem withoutBytes_shown {R : Reading} {drop : Str → Bool} {ls ls' : List Str} (h : WithoutBytes ls ls')
    (hcr : ∀ l ∈ ls, (13 : Byte) ∉ l) : ∀ c : Carry, SameShown byteless (happenings R drop c ls) (happenings R drop c ls') := by
  induction h with
  | nil => intro c; exact .nil
  | same _ ih =>
    intro c
    rw [happenings, happenings]
    exact .cons rfl (ih (fun l hl => hcr l (by simp [hl])) _)
  | @bytes m a bs w bs' t ls ls' hm ha hne hbs hbs' hw ht _ ih =>
    intro c
    have hcr' := hcr _ (List.mem_cons_self)
    have e : ∀ l : Str, (13 : Byte) ∉ l → l.filter (· != 13) = l := fun l h => List.filter_eq_self.2 fun x hx => by
      simp only [bne_iff_ne]; rintro rfl; exact h hx
    have hcr2 : (13 : Byte) ∉ m ++ a ++ c! ':' :: (bs ++ t) := by
      intro hx
      refine hcr' ?_
      simp only [List.mem_append, List.mem_cons] at hx ⊢
      rcases hx with (hx | hx) | hx | hx | hx
      · exact .inl (.inl hx)
      · exact .inl (.inr hx)
      · exact .inr (.inl hx)
      · exact .inr (.inr (.inl (.inl hx)))
      · exact .inr (.inr (.inr (.inr (.inr hx))))
    obtain ⟨by', r1, f2, r2, k1, k2, k3, k4⟩ := bytes_kinds hm ha hne hbs hbs' hw ht c.ign
    rw [happenings, happenings, e _ hcr', e _ hcr2, k1, k2]
    have hn : c.next R drop (.code (some a) by' [] r1) = c.next R drop (.code (some a) [] f2 r2) := by
      simp only [Carry.next, k4]
    rw [hn]
    refine .cons ?_ (ih (fun l hl => hcr l (by simp [hl])) _)
    simp only [Carry.shown, k3, k4]
    split <;> rfl

end AsmParser
