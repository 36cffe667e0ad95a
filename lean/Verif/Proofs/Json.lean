/-
Helper lemmas: reading back what `JsonWriter` writes.
-/
import Verif.Model.Json
import Verif.Spec.Json

namespace AsmParser

/-! ### Strings -/

theorem readString_succ {n : Nat} {c : Byte} {s : Str} (h : c ≠ 34) :
    readString (n + 1) (c :: s) =
      (readChar (c :: s)).bind fun x => (readString n x.2).bind fun y => some (x.1 ++ y.1, y.2) := by
  conv => lhs; unfold readString
  split
  · simp at *
  · rename_i h'; simp at h'; exact absurd h'.1 h
  · rename_i h' _; simp at h'; subst h'; rfl

theorem readChar_plain {c : Byte} {s : Str} (h1 : ¬ c < 32) (h2 : c ≠ 34) (h3 : c ≠ 92) :
    readChar (c :: s) = some ([c], s) := by
  unfold readChar
  split
  · rename_i h; simp at h; exact absurd h.1 h3
  · rename_i h; simp at h; exact absurd h.1 h3
  · rename_i h; simp at h; obtain ⟨rfl, rfl⟩ := h
    simp [h1, h2, h3]
  · rename_i h; simp at h

theorem escape_cons (c : Byte) (s : Str) : escape (c :: s) =
    (if c = 9 then b! "\\t" else if c = 92 then b! "\\\\" else if c = 34 then b! "\\\"" else [c]) ++ escape s := by
  conv => lhs; unfold escape
  simp only [beq_iff_eq]

theorem readString_escape {s : Str} (h : NoControl s) (n : Nat) (r : Str) (hn : (escape s).length + 1 ≤ n) :
    readString n (escape s ++ 34 :: r) = some (s, r) := by
  induction s generalizing n with
  | nil =>
    cases n with
    | zero => simp at hn
    | succ n => rfl
  | cons c s ih =>
    have hc := h c (by simp)
    replace ih := ih (fun c hc => h c (by simp [hc]))
    cases n with
    | zero => simp at hn
    | succ n =>
      rw [escape_cons] at *
      by_cases h9 : c = 9
      · subst h9
        simp at hn
        show readString (n + 1) (92 :: 116 :: (escape s ++ 34 :: r)) = _
        rw [readString_succ (by decide)]
        simp [readChar, simpleEscape, ih n (by omega)]
      · by_cases h92 : c = 92
        · subst h92
          simp at hn
          show readString (n + 1) (92 :: 92 :: (escape s ++ 34 :: r)) = _
          rw [readString_succ (by decide)]
          simp [readChar, simpleEscape, ih n (by omega)]
        · by_cases h34 : c = 34
          · subst h34
            simp at hn
            show readString (n + 1) (92 :: 34 :: (escape s ++ 34 :: r)) = _
            rw [readString_succ (by decide)]
            simp [readChar, simpleEscape, ih n (by omega)]
          · simp only [h9, h92, h34, ↓reduceIte, List.cons_append, List.nil_append] at hn ⊢
            rw [readString_succ h34, readChar_plain (by
              rcases hc with hc | hc
              · exact UInt8.not_lt.mpr hc
              · exact absurd hc h9) h34 h92]
            simp only [List.length_cons] at hn
            simp [ih n (by omega)]

theorem escape_plain {s : Str} (h : NoEscape s) : escape s = s := by
  induction s with
  | nil => rfl
  | cons c s ih =>
    have hc := h c (by simp)
    have h9 : c ≠ 9 := by rintro rfl; exact absurd hc.1 (by decide)
    rw [escape_cons]
    simp [h9, hc.2.1, hc.2.2, ih (fun c hc => h c (by simp [hc]))]

theorem NoEscape.noControl {s : Str} (h : NoEscape s) : NoControl s := fun c hc => .inl (h c hc).1

/-! ### Texts of values -/

/-- What may follow a number. -/
def OkRest (r : Str) : Prop := ∀ c, r.head? = some c → isDec c = false ∧ c ≠ 46 ∧ c ≠ 101 ∧ c ≠ 69

/-- The text `t` is read as `v`. -/
structure Reads (v : JVal) (t : Str) : Prop where
  start : ∃ c cs, t = c :: cs ∧ isJsonWs c = false ∧ c ≠ 93
  read : ∀ n r, t.length ≤ n → OkRest r → readValue n (t ++ r) = some (v, r)

theorem skipWs_cons {c : Byte} {s : Str} (h : isJsonWs c = false) : skipWs (c :: s) = c :: s := by
  simp [skipWs, h]

theorem skipWs_ws {w : Str} (hw : ∀ c ∈ w, isJsonWs c = true) (s : Str) : skipWs (w ++ s) = skipWs s := by
  unfold skipWs
  rw [List.dropWhile_append]
  have : w.dropWhile isJsonWs = [] := by
    induction w with
    | nil => rfl
    | cons c w ih => simp [hw c (by simp), ih (fun c hc => hw c (by simp [hc]))]
  simp [this]

theorem Reads.skip {v : JVal} {t : Str} (h : Reads v t) (r : Str) : skipWs (t ++ r) = t ++ r := by
  obtain ⟨⟨c, cs, rfl, h1, -⟩, -⟩ := h
  exact skipWs_cons h1

theorem OkRest.cons {c : Byte} {r : Str} (h : isDec c = false ∧ c ≠ 46 ∧ c ≠ 101 ∧ c ≠ 69 := by decide) : OkRest (c :: r) := by
  intro d hd; simp at hd; subst hd; exact h

theorem reads_null : Reads .null b! "null" := by
  refine ⟨⟨_, _, rfl, by decide, by decide⟩, ?_⟩
  intro n r hn _
  cases n with
  | zero => simp at hn
  | succ n => rfl

theorem reads_escape {s : Str} (h : NoControl s) : Reads (.str s) (strValue s) := by
  refine ⟨⟨34, escape s ++ [34], by simp [strValue, dq], by decide, by decide⟩, ?_⟩
  intro n r hn _
  cases n with
  | zero => simp [strValue, dq] at hn
  | succ n =>
    have : strValue s ++ r = 34 :: (escape s ++ 34 :: r) := by simp [strValue, dq]
    rw [this]
    show (readString n (escape s ++ 34 :: r)).map _ = _
    rw [readString_escape h n r (by simp [strValue, dq] at hn; omega)]
    rfl

theorem reads_raw {s : Str} (h : NoEscape s) : Reads (.str s) (dq ++ s ++ dq) := by
  have := reads_escape h.noControl
  rwa [strValue, escape_plain h] at this

/-! ### Numbers -/

theorem natToDecAux_ok (fuel n : Nat) (h : n < fuel) :
    (∀ c ∈ natToDecAux fuel n, isDec c = true) ∧ digitsVal (natToDecAux fuel n) = n ∧
    ∃ c cs, natToDecAux fuel n = c :: cs ∧ (c = 48 → cs = []) := by
  induction fuel generalizing n with
  | zero => omega
  | succ fuel ih =>
    have dig : ∀ k, k < 10 → isDec (UInt8.ofNat (48 + k)) = true ∧ (UInt8.ofNat (48 + k)).toNat - 48 = k ∧
        (UInt8.ofNat (48 + k) = 48 → k = 0) := by
      intro k hk
      have : ∀ k : Fin 10, isDec (UInt8.ofNat (48 + k.1)) = true ∧ (UInt8.ofNat (48 + k.1)).toNat - 48 = k.1 ∧
        (UInt8.ofNat (48 + k.1) = 48 → k.1 = 0) := by decide
      exact this ⟨k, hk⟩
    unfold natToDecAux
    by_cases h10 : n < 10
    · simp only [h10, ↓reduceIte]
      obtain ⟨h1, h2, h3⟩ := dig n h10
      refine ⟨by simpa using h1, by simpa [digitsVal] using h2, _, _, rfl, fun _ => rfl⟩
    · simp only [h10, ↓reduceIte]
      obtain ⟨i1, i2, c, cs, i3, i4⟩ := ih (n / 10) (by omega)
      obtain ⟨h1, h2, h3⟩ := dig (n % 10) (by omega)
      refine ⟨?_, ?_, c, cs ++ [UInt8.ofNat (48 + n % 10)], by rw [i3]; rfl, ?_⟩
      · intro d hd
        simp only [List.mem_append, List.mem_singleton] at hd
        rcases hd with hd | rfl
        · exact i1 d hd
        · exact h1
      · unfold digitsVal at i2 ⊢
        rw [List.foldl_append, i2]
        simp only [List.foldl_cons, List.foldl_nil, h2]
        omega
      · rintro rfl
        have := i4 rfl
        subst this
        rw [i3] at i2
        simp [digitsVal] at i2
        omega

theorem natToDec_ok (n : Nat) :
    (∀ c ∈ natToDec n, isDec c = true) ∧ digitsVal (natToDec n) = n ∧
    ∃ c cs, natToDec n = c :: cs ∧ (c = 48 → cs = []) := natToDecAux_ok (n + 1) n (by omega)

theorem readDigits_ok {d r : Str} (h : ∀ c ∈ d, isDec c = true) (hne : d ≠ []) (hr : OkRest r) :
    readDigits (d ++ r) = some (d, r) := by
  have h1 : (d ++ r).takeWhile isDec = d := by
    rw [List.takeWhile_append_of_pos h]
    cases r with
    | nil => simp
    | cons c r => simp [(hr c rfl).1]
  have h2 : (d ++ r).dropWhile isDec = r := by
    rw [List.dropWhile_append_of_pos h]
    cases r with
    | nil => simp
    | cons c r => simp [(hr c rfl).1]
  unfold readDigits
  simp [h1, h2, hne]

theorem readNumber_ok (neg : Bool) (n : Nat) (r : Str) (hr : OkRest r) :
    readNumber ((if neg then [45] else []) ++ natToDec n ++ r) = some (.num (if neg then -(n : Int) else n), r) := by
  obtain ⟨h1, h2, c, cs, h3, h4⟩ := natToDec_ok n
  have hd := readDigits_ok h1 (by rw [h3]; simp) hr
  have hz : ¬ (cs ≠ [] ∧ c = 48) := by rintro ⟨a, b⟩; exact a (h4 b)
  have hc45 : c ≠ 45 := by
    rintro rfl
    have := h1 45 (by rw [h3]; simp)
    cases this
  have hm : readSign ((if neg then [45] else []) ++ natToDec n ++ r) = (neg, natToDec n ++ r) := by
    cases neg with
    | true => rfl
    | false =>
      rw [h3]
      simp only [Bool.false_eq_true, ↓reduceIte, List.nil_append, List.cons_append]
      unfold readSign
      split
      · rename_i h; simp at h; exact absurd h.1 hc45
      · rfl
  have hz' : ¬ ((decide ((natToDec n).length > 1) && (natToDec n).head? == some 48) = true) := by
    rw [h3]
    simp
    intro h
    rintro rfl
    rw [h4 rfl] at h
    simp at h
  have hf : readFraction r = some ([], r) := by
    unfold readFraction
    split
    · exact absurd rfl (hr 46 rfl).2.1
    · rfl
  have he : readExponent r = some (0, r) := by
    unfold readExponent
    split
    · exact absurd rfl (hr 101 rfl).2.2.1
    · exact absurd rfl (hr 69 rfl).2.2.2
    · rfl
  unfold readNumber
  simp only [hm, hd, Option.bind_some, hz', Bool.false_eq_true, ↓reduceIte, hf, he, List.append_nil, h2]
  simp

theorem readValue_number {n : Nat} {c : Byte} {cs : Str} (h : isDec c = true ∨ c = 45) :
    readValue (n + 1) (c :: cs) = readNumber (c :: cs) := by
  have hne : c ≠ 123 ∧ c ≠ 91 ∧ c ≠ 34 ∧ c ≠ 110 ∧ c ≠ 116 ∧ c ≠ 102 := by
    rcases h with h | rfl
    · refine ⟨?_, ?_, ?_, ?_, ?_, ?_⟩ <;> (rintro rfl; cases h)
    · decide
  obtain ⟨a1, a2, a3, a4, a5, a6⟩ := hne
  unfold readValue
  split <;> rename_i h <;> simp at h
  · exact absurd h.1 a1
  · exact absurd h.1 a2
  · exact absurd h.1 a3
  · exact absurd h.1 a4
  · exact absurd h.1 a5
  · exact absurd h.1 a6
  · rfl

theorem isDec_start {c : Byte} (h : isDec c = true ∨ c = 45) : isJsonWs c = false ∧ c ≠ 93 := by
  rcases h with h | rfl
  · have : ∀ i : Fin 256, isDec (UInt8.ofFin i) = true → isJsonWs (UInt8.ofFin i) = false ∧ UInt8.ofFin i ≠ 93 := by
      decide +kernel
    exact this c.toFin h
  · decide

theorem intToDec_eq (z : Int) : intToDec z = (if decide (z < 0) then [45] else []) ++ natToDec z.natAbs := by
  unfold intToDec
  by_cases h : z < 0 <;> simp [h]

theorem reads_num (z : Int) : Reads (.num z) (intToDec z) := by
  obtain ⟨h1, h2, c, cs, h3, h4⟩ := natToDec_ok z.natAbs
  obtain ⟨d, ds, e, hd⟩ : ∃ d ds, intToDec z = d :: ds ∧ (isDec d = true ∨ d = 45) := by
    rw [intToDec_eq]
    by_cases h : z < 0
    · exact ⟨45, natToDec z.natAbs, by simp [h], .inr rfl⟩
    · exact ⟨c, cs, by simp [h, h3], .inl (h1 c (by simp [h3]))⟩
  refine ⟨⟨d, ds, e, isDec_start hd⟩, ?_⟩
  intro n r hn hr
  cases n with
  | zero => rw [e] at hn; simp at hn
  | succ n =>
    have : readValue (n + 1) (intToDec z ++ r) = readNumber (intToDec z ++ r) := by
      rw [e, List.cons_append, readValue_number hd]
    rw [this, intToDec_eq, readNumber_ok _ _ _ hr]
    congr 3
    by_cases h : z < 0
    · simp [h]; omega
    · simp [h]; omega

/-! ### Arrays -/

/-- `t` is the text of the elements `vs`. -/
structure ReadsElems (vs : List JVal) (t : Str) : Prop where
  start : ∃ c cs, t = c :: cs ∧ isJsonWs c = false ∧ c ≠ 93
  read : ∀ n r, t.length < n → readElements n (t ++ 93 :: r) = some (vs, r)

theorem ReadsElems.one {v : JVal} {t : Str} (h : Reads v t) : ReadsElems [v] t := by
  refine ⟨h.start, ?_⟩
  intro n r hn
  cases n with
  | zero => omega
  | succ n =>
    unfold readElements
    rw [h.read n (93 :: r) (by omega) .cons]
    simp [skipWs_cons (show isJsonWs 93 = false by decide)]

theorem ReadsElems.cons {v : JVal} {t w u : Str} {vs : List JVal} (h : Reads v t) (hw : ∀ c ∈ w, isJsonWs c = true)
    (hu : ReadsElems vs u) : ReadsElems (v :: vs) (t ++ (44 :: w ++ u)) := by
  obtain ⟨c, cs, rfl, h1, h2⟩ := h.start
  refine ⟨⟨c, cs ++ (44 :: w ++ u), by simp, h1, h2⟩, ?_⟩
  intro n r hn
  cases n with
  | zero => omega
  | succ n =>
    simp only [List.length_append, List.length_cons] at hn
    unfold readElements
    have e : c :: cs ++ (44 :: w ++ u) ++ 93 :: r = c :: cs ++ (44 :: (w ++ (u ++ 93 :: r))) := by simp
    rw [e, h.read n _ (by simp; omega) .cons]
    simp only [Option.bind_eq_bind, Option.bind_some, skipWs_cons (show isJsonWs 44 = false by decide)]
    obtain ⟨d, ds, rfl, h3, h4⟩ := hu.start
    rw [skipWs_ws hw, List.cons_append, skipWs_cons h3, ← List.cons_append, hu.read n r (by simp at hn ⊢; omega)]
    rfl

theorem ReadsElems.sep {w : Str} (hw : ∀ c ∈ w, isJsonWs c = true) {α : Type} (f : α → JVal) (g : α → Str) (xs : List α)
    (hne : xs ≠ []) (h : ∀ x ∈ xs, Reads (f x) (g x)) : ReadsElems (xs.map f) (sepBy (44 :: w) (xs.map g)) := by
  induction xs with
  | nil => exact absurd rfl hne
  | cons x xs ih =>
    cases xs with
    | nil => simpa [sepBy] using ReadsElems.one (h x (by simp))
    | cons y ys =>
      have := ReadsElems.cons (h x (by simp)) hw (ih (by simp) (fun z hz => h z (by simp [hz])))
      simpa [sepBy, List.append_assoc] using this

theorem ReadsElems.arr {vs : List JVal} {t : Str} (h : ReadsElems vs t) : Reads (.arr vs) (91 :: (t ++ [93])) := by
  refine ⟨⟨91, _, rfl, by decide, by decide⟩, ?_⟩
  intro n r hn _
  cases n with
  | zero => simp at hn
  | succ n =>
    simp only [List.length_cons, List.length_append, List.length_nil] at hn
    obtain ⟨c, cs, rfl, h1, h2⟩ := h.start
    have e : 91 :: (c :: cs ++ [93]) ++ r = 91 :: (c :: cs ++ 93 :: r) := by simp
    rw [e]
    unfold readValue
    simp only [List.cons_append]
    rw [skipWs_cons h1]
    split
    · rename_i h'; simp at h'; exact absurd h'.1 h2
    · rw [← List.cons_append, h.read n r (by omega)]; rfl

theorem reads_arr {w : Str} (hw : ∀ c ∈ w, isJsonWs c = true) {α : Type} (f : α → JVal) (g : α → Str) (xs : List α)
    (h : ∀ x ∈ xs, Reads (f x) (g x)) : Reads (.arr (xs.map f)) (91 :: (sepBy (44 :: w) (xs.map g) ++ [93])) := by
  by_cases hne : xs = []
  · subst hne
    refine ⟨⟨91, _, rfl, by decide, by decide⟩, ?_⟩
    intro n r hn _
    cases n with
    | zero => simp at hn
    | succ n => rfl
  · exact (ReadsElems.sep hw f g xs hne h).arr

/-! ### Objects -/

/-- `t` is the text of the members `ms`. -/
structure ReadsMems (ms : List (Str × JVal)) (t : Str) : Prop where
  start : ∃ cs, t = 34 :: cs
  read : ∀ n r, t.length < n → readMembers n (t ++ 125 :: r) = some (ms, r)

/-- `t` is the text of further members, with a leading comma. -/
def ReadsTail (ms : List (Str × JVal)) (t : Str) : Prop :=
  ∀ k v u, NoControl k → Reads v u → ReadsMems ((k, v) :: ms) (keyNameEsc k ++ u ++ t)

theorem readMembers_key {k : Str} (hk : NoControl k) {v : JVal} {u : Str} (h : Reads v u) (n : Nat) (r : Str)
    (hn : (keyNameEsc k ++ u).length ≤ n) (hr : OkRest r) :
    readMembers (n + 1) (keyNameEsc k ++ u ++ r) =
      (match skipWs r with
        | 44 :: r => do
          let (ms, r) ← readMembers n (skipWs r)
          return ((k, v) :: ms, r)
        | 125 :: r => some ([(k, v)], r)
        | _ => none) := by
  have e : keyNameEsc k ++ u ++ r = 34 :: (escape k ++ 34 :: (58 :: 32 :: (u ++ r))) := by simp [keyNameEsc, dq]
  simp only [keyNameEsc, dq, List.length_append, List.length_cons, List.length_nil] at hn
  rw [e]
  conv => lhs; unfold readMembers
  simp only [readString_escape hk n _ (show (escape k).length + 1 ≤ n by omega), Option.bind_eq_bind, Option.bind_some,
    skipWs_cons (show isJsonWs 58 = false by decide)]
  have : skipWs (32 :: (u ++ r)) = u ++ r := by
    have := skipWs_ws (w := [32]) (by simp [isJsonWs]) (u ++ r)
    rw [h.skip r] at this
    exact this
  rw [this, h.read n r (by omega) hr]
  rfl

theorem ReadsTail.nil : ReadsTail [] [] := by
  intro k v u hk h
  refine ⟨⟨escape k ++ b! "\": " ++ u, by simp [keyNameEsc, dq]⟩, ?_⟩
  intro n r hn
  cases n with
  | zero => omega
  | succ n =>
    rw [List.append_nil] at hn ⊢
    rw [readMembers_key hk h n _ (by omega) .cons, skipWs_cons (by decide)]
    rfl

theorem ReadsTail.cons {k w u t : Str} {v : JVal} {ms : List (Str × JVal)} (hk : NoControl k) (h : Reads v u)
    (hw : ∀ c ∈ w, isJsonWs c = true) (ht : ReadsTail ms t) :
    ReadsTail ((k, v) :: ms) (44 :: w ++ keyNameEsc k ++ u ++ t) := by
  intro k' v' u' hk' h'
  have hm := ht k v u hk h
  obtain ⟨cs, hcs⟩ := hm.start
  refine ⟨⟨escape k' ++ b! "\": " ++ u' ++ (44 :: w ++ keyNameEsc k ++ u ++ t), by simp [keyNameEsc, dq]⟩, ?_⟩
  intro n r hn
  cases n with
  | zero => omega
  | succ n =>
    have e : keyNameEsc k' ++ u' ++ (44 :: w ++ keyNameEsc k ++ u ++ t) ++ 125 :: r =
        keyNameEsc k' ++ u' ++ (44 :: (w ++ (keyNameEsc k ++ u ++ t ++ 125 :: r))) := by simp
    simp only [List.length_append, List.length_cons] at hn
    rw [e, readMembers_key hk' h' n _ (by simp; omega) .cons, skipWs_cons (by decide)]
    simp only
    have e2 : skipWs (w ++ (keyNameEsc k ++ u ++ t ++ 125 :: r)) = keyNameEsc k ++ u ++ t ++ 125 :: r := by
      rw [skipWs_ws hw, hcs]; exact skipWs_cons (by decide)
    rw [e2, hm.read n r (by simp; omega)]
    rfl

theorem ReadsTail.opt {k w u t : Str} {v : JVal} {ms : List (Str × JVal)} (b : Prop) [Decidable b] (hk : NoControl k)
    (h : b → Reads v u) (hw : ∀ c ∈ w, isJsonWs c = true) (ht : ReadsTail ms t) :
    ReadsTail ((if b then [(k, v)] else []) ++ ms) ((if b then 44 :: w ++ keyNameEsc k ++ u else []) ++ t) := by
  by_cases hb : b
  · simpa [hb] using ht.cons hk (h hb) hw
  · simpa [hb] using ht

/-- An optional number member, with the comma before it. -/
def numText (k w : Str) : Option Int → Str
  | none => []
  | some z => 44 :: w ++ keyNameEsc k ++ intToDec z

theorem ReadsTail.optNum {k w t : Str} {ms : List (Str × JVal)} (o : Option Int) (hk : NoControl k)
    (hw : ∀ c ∈ w, isJsonWs c = true) (ht : ReadsTail ms t) :
    ReadsTail (AsmParser.optNum k o ++ ms) (numText k w o ++ t) := by
  cases o with
  | none => exact ht
  | some z => exact ht.cons hk (reads_num z) hw

theorem ReadsMems.obj {ms : List (Str × JVal)} {t : Str} (h : ReadsMems ms t) : Reads (.obj ms) (123 :: (t ++ [125])) := by
  refine ⟨⟨123, _, rfl, by decide, by decide⟩, ?_⟩
  intro n r hn _
  cases n with
  | zero => simp at hn
  | succ n =>
    simp only [List.length_cons, List.length_append, List.length_nil] at hn
    obtain ⟨cs, rfl⟩ := h.start
    have e : 123 :: (34 :: cs ++ [125]) ++ r = 123 :: (34 :: cs ++ 125 :: r) := by simp
    rw [e]
    unfold readValue
    simp only [List.cons_append]
    rw [skipWs_cons (by decide)]
    split
    · rename_i h'; simp at h'
    · rw [← List.cons_append, h.read n r (by omega)]; rfl

theorem ReadsMems.sep {w : Str} (hw : ∀ c ∈ w, isJsonWs c = true) {α : Type} (k : α → Str) (f : α → JVal) (g : α → Str)
    (xs : List α) (hne : xs ≠ []) (hk : ∀ x ∈ xs, NoControl (k x)) (h : ∀ x ∈ xs, Reads (f x) (g x)) :
    ReadsMems (xs.map fun x => (k x, f x)) (sepBy (44 :: w) (xs.map fun x => keyNameEsc (k x) ++ g x)) := by
  have tail : ∀ (ys : List α), (∀ x ∈ ys, NoControl (k x)) → (∀ x ∈ ys, Reads (f x) (g x)) →
      ReadsTail (ys.map fun x => (k x, f x)) (ys.flatMap fun x => 44 :: w ++ keyNameEsc (k x) ++ g x) := by
    intro ys
    induction ys with
    | nil => intros; exact ReadsTail.nil
    | cons y ys ih =>
      intro h1 h2
      have := ReadsTail.cons (h1 y (by simp)) (h2 y (by simp)) hw
        (ih (fun x hx => h1 x (by simp [hx])) (fun x hx => h2 x (by simp [hx])))
      simpa using this
  have eq : ∀ (x : α) (ys : List α), sepBy (44 :: w) ((x :: ys).map fun x => keyNameEsc (k x) ++ g x) =
      keyNameEsc (k x) ++ g x ++ ys.flatMap fun x => 44 :: w ++ keyNameEsc (k x) ++ g x := by
    intro x ys
    induction ys generalizing x with
    | nil => simp [sepBy]
    | cons y ys ih =>
      have := ih y
      simp only [List.map_cons, List.flatMap_cons, sepBy] at this ⊢
      rw [this]
      simp
  cases xs with
  | nil => exact absurd rfl hne
  | cons x ys =>
    rw [eq]
    exact tail ys (fun z hz => hk z (by simp [hz])) (fun z hz => h z (by simp [hz])) _ _ _ (hk x (by simp)) (h x (by simp))

theorem reads_obj_sep {w : Str} (hw : ∀ c ∈ w, isJsonWs c = true) {α : Type} (k : α → Str) (f : α → JVal) (g : α → Str)
    (xs : List α) (hk : ∀ x ∈ xs, NoControl (k x)) (h : ∀ x ∈ xs, Reads (f x) (g x)) :
    Reads (.obj (xs.map fun x => (k x, f x))) (123 :: (sepBy (44 :: w) (xs.map fun x => keyNameEsc (k x) ++ g x) ++ [125])) := by
  by_cases hne : xs = []
  · subst hne
    refine ⟨⟨123, _, rfl, by decide, by decide⟩, ?_⟩
    intro n r hn _
    cases n with
    | zero => simp at hn
    | succ n => rfl
  · exact (ReadsMems.sep hw k f g xs hne hk h).obj

/-! ### The document -/

theorem reads_json {v : JVal} {t : Str} (h : Reads v t) : readJson t = some v := by
  have h1 := h.read (t.length + 1) [] (by omega) (by intro c hc; simp at hc)
  have h2 := h.skip []
  rw [List.append_nil] at h1 h2
  have h3 : skipWs [] = [] := rfl
  simp [readJson, h1, h2, h3]

instance (s : Str) : Decidable (NoControl s) := inferInstanceAs (Decidable (∀ c ∈ s, _))
instance (s : Str) : Decidable (NoEscape s) := inferInstanceAs (Decidable (∀ c ∈ s, _))

theorem wsp : ∀ c ∈ ([32] : Str), isJsonWs c = true := by decide
theorem wsn : ∀ c ∈ ([] : Str), isJsonWs c = true := by decide

theorem isMainFile_eq (file : Str) : isMainFile file = decide (MainFile file) := by
  rw [Bool.eq_iff_iff]
  simp [isMainFile, startsWith]
  rfl

theorem sourceFileField_eq (f : Filter) (file : Str) :
    sourceFileField f file = shownFile (!f.dontMaskFilenames) file := by
  unfold sourceFileField shownFile
  rw [isMainFile_eq]
  cases file with
  | nil => simp
  | cons c cs =>
    by_cases h1 : f.dontMaskFilenames = false ∧ MainFile (c :: cs)
    · simp [h1.1, h1.2]
    · have : ¬ ((!f.dontMaskFilenames && decide (MainFile (c :: cs))) = true) := by simpa using h1
      simp only [List.isEmpty_cons, Bool.not_false, ↓reduceIte, this]
      have : ¬ (c :: cs = [] ∨ (!f.dontMaskFilenames) = true ∧ MainFile (c :: cs)) := by simpa using h1
      simp only [this, ↓reduceIte, startsWith, List.isPrefixOf_iff_prefix]
      rfl

theorem NoControl.drop {s : Str} (h : NoControl s) (n : Nat) : NoControl (s.drop n) :=
  fun c hc => h c (List.mem_of_mem_drop hc)

theorem shownFile_noControl {m : Bool} {file s : Str} (h : NoControl file) (hs : shownFile m file = some s) : NoControl s := by
  unfold shownFile at hs
  split at hs
  · cases hs
  · split at hs
    · cases hs; exact h.drop 5
    · cases hs; exact h

theorem keyName_eq {k : Str} (h : NoEscape k) : keyName k = keyNameEsc k := by
  rw [keyName, keyNameEsc, escape_plain h]

/-- The text of the `file` member. -/
def fileText : Option Str → Str
  | none => b! "null"
  | some s => strValue s

theorem writeSource_eq (f : Filter) (l : AsmLine) : writeSource f l =
    if (!l.isLabel || l.hasOpcode) && decide (l.source.line > 0) then
    b! "{"
    ++ (if l.source.column ≠ 0 then keyName b! "column" ++ intToDec l.source.column ++ commaSp else [])
    ++ (keyNameEsc b! "file" ++ fileText (sourceFileField f l.source.file) ++ commaSp)
    ++ keyName b! "mainsource" ++ strValue (if sourceIsMain l.source.file then b! "true" else b! "false")
    ++ commaSp
    ++ keyName b! "line" ++ intToDec l.source.line
    ++ b! "}"
  else b! "null" := by
  unfold writeSource
  cases sourceFileField f l.source.file <;> rfl

theorem LinePrintable.writable {l : AsmLine} (h : LinePrintable l) (f : Filter) : LineWritable f l where
  text := h.text
  sect _ := h.sect
  file _ _ hs := shownFile_noControl h.file hs
  refs := h.refs
  opcodes o ho c hc := (h.opcodes o ho c hc).1

theorem reads_source (f : Filter) (l : AsmLine)
    (h : ∀ s, HasPosition l → shownFile (!f.dontMaskFilenames) l.source.file = some s → NoControl s) :
    Reads (positionJson (!f.dontMaskFilenames) l) (writeSource f l) := by
  unfold positionJson
  rw [writeSource_eq]
  have hc : ((!l.isLabel || l.hasOpcode) && decide (l.source.line > 0)) = decide (HasPosition l) := by
    rw [Bool.eq_iff_iff, decide_eq_true_iff]
    unfold HasPosition
    cases l.isLabel <;> cases l.hasOpcode <;> simp
  rw [hc]
  by_cases hp : HasPosition l
  · simp only [hp, decide_true, ↓reduceIte]
    rw [sourceFileField_eq]
    have hmain : sourceIsMain l.source.file = decide (l.source.file = [] ∨ MainFile l.source.file) := by
      unfold sourceIsMain
      rw [isMainFile_eq]
      by_cases he : l.source.file = [] <;> simp [he]
    have hfile : Reads (optStr (shownFile (!f.dontMaskFilenames) l.source.file))
        (fileText (shownFile (!f.dontMaskFilenames) l.source.file)) := by
      cases hs : shownFile (!f.dontMaskFilenames) l.source.file with
      | none => exact reads_null
      | some s => exact reads_escape (h s hp hs)
    rw [hmain]
    have hms : Reads (.str (if l.source.file = [] ∨ MainFile l.source.file then b! "true" else b! "false"))
        (strValue (if decide (l.source.file = [] ∨ MainFile l.source.file) = true then b! "true" else b! "false")) := by
      by_cases hm : l.source.file = [] ∨ MainFile l.source.file
      · simp only [hm, decide_true, ↓reduceIte]; exact reads_escape (by decide)
      · simp only [hm, decide_false, Bool.false_eq_true, ↓reduceIte]; exact reads_escape (by decide)
    generalize fileText (shownFile (!f.dontMaskFilenames) l.source.file) = ft at *
    generalize (strValue (if decide (l.source.file = [] ∨ MainFile l.source.file) = true then b! "true" else b! "false")) = mt at *
    have t1 := ReadsTail.cons (k := b! "line") (by decide) (reads_num l.source.line) wsp ReadsTail.nil
    have t2 := t1.cons (k := b! "mainsource") (by decide) hms wsp
    by_cases hcol : l.source.column = 0
    · have t3 := t2 b! "file" _ _ (by decide) hfile
      have := t3.obj
      simp only [hcol, ↓reduceIte, List.nil_append, ne_eq, not_true_eq_false, List.append_assoc, List.append_nil,
        List.cons_append, commaSp, keyName_eq (k := b! "mainsource") (by decide), keyName_eq (k := b! "line") (by decide)] at this ⊢
      exact this
    · have t3 := t2.cons (k := b! "file") (by decide) hfile wsp b! "column" _ _ (by decide) (reads_num l.source.column)
      have := t3.obj
      simp only [hcol, ↓reduceIte, List.nil_append, ne_eq, not_false_eq_true, List.append_assoc, List.append_nil,
        List.cons_append, commaSp, keyName_eq (k := b! "mainsource") (by decide), keyName_eq (k := b! "line") (by decide), keyName_eq (k := b! "column") (by decide)] at this ⊢
      exact this
  · simp only [hp, decide_false, Bool.false_eq_true, ↓reduceIte]
    exact reads_null

theorem reads_ref {r : AsmLabel} (h : NoControl r.name) : Reads (refJson r) (writeLabelRef r) := by
  have i1 := ReadsTail.cons (k := b! "endCol") (by decide) (reads_num r.endCol) wsp ReadsTail.nil
  have i2 := (i1 b! "startCol" _ _ (by decide) (reads_num r.startCol)).obj
  have o1 := ReadsTail.cons (k := b! "range") (by decide) i2 wsp ReadsTail.nil
  have := (o1 b! "name" _ _ (by decide) (reads_escape h)).obj
  unfold refJson writeLabelRef
  simp only [List.nil_append, List.append_assoc, List.append_nil,
        List.cons_append, commaSp, keyName_eq (k := b! "range") (by decide), keyName_eq (k := b! "startCol") (by decide), keyName_eq (k := b! "endCol") (by decide)] at this ⊢
  exact this

theorem writeLine_eq (f : Filter) (l : AsmLine) : writeLine f l =
    b! "{" ++ keyName b! "labels" ++ writeLabelArray l
  ++ (if l.opcodes.length > 0 then commaSp ++ keyName b! "opcodes" ++ writeOpcodesArray l else [])
  ++ numText b! "address" [32] (if f.compatmode = true ∧ l.isLabel = true then none else l.address)
  ++ commaSp ++ keyName b! "source" ++ writeSource f l
  ++ (if !l.sect.isEmpty && !f.compatmode then
        commaSp ++ keyNameEsc b! "section" ++ strValue l.sect else [])
  ++ commaSp ++ keyName b! "text" ++ strValue l.text
  ++ b! "}" := by
  unfold writeLine
  cases l.address <;> cases f.compatmode <;> cases l.isLabel <;> rfl

theorem reads_line (f : Filter) {l : AsmLine} (h : LineWritable f l) (hop : ∀ o ∈ l.opcodes, NoEscape o) :
    Reads (lineJson f.compatmode (!f.dontMaskFilenames) l) (writeLine f l) := by
  have t1 := ReadsTail.cons (k := b! "text") (by decide) (reads_escape h.text) wsp ReadsTail.nil
  have t2 := t1.opt (k := b! "section") (w := [32]) (¬ (l.sect = [] ∨ f.compatmode = true)) (by decide)
    (fun hs => reads_escape (h.sect (by simpa using fun hc => hs (.inr hc)))) wsp
  have t3 := t2.cons (k := b! "source") (by decide) (reads_source f l h.file) wsp
  have t4 := t3.optNum (k := b! "address") (w := [32]) (if f.compatmode = true ∧ l.isLabel = true then none else l.address)
    (by decide) wsp
  have ho : Reads (.arr (l.opcodes.map .str)) (writeOpcodesArray l) := by
    have := reads_arr wsp (α := Str) .str (fun o => dq ++ o ++ dq) l.opcodes (fun o ho => reads_raw (hop o ho))
    exact this
  have t5 := t4.opt (k := b! "opcodes") (w := [32]) (¬ l.opcodes = []) (by decide) (fun _ => ho) wsp
  have hl : Reads (.arr (l.labels.map refJson)) (writeLabelArray l) :=
    reads_arr wsn refJson writeLabelRef l.labels (fun r hr => reads_ref (h.refs r hr))
  have := (t5 b! "labels" _ _ (by decide) hl).obj
  unfold lineJson
  rw [writeLine_eq]
  have c1 : (if l.opcodes.length > 0 then commaSp ++ keyName b! "opcodes" ++ writeOpcodesArray l else []) =
      (if ¬ l.opcodes = [] then 44 :: [32] ++ keyNameEsc b! "opcodes" ++ writeOpcodesArray l else []) := by
    by_cases he : l.opcodes = []
    · simp [he]
    · have : l.opcodes.length > 0 := List.length_pos_iff.2 he
      simp [he, this, commaSp, keyName_eq (k := b! "opcodes") (by decide)]
  have c2 : (if (!l.sect.isEmpty && !f.compatmode) = true then commaSp ++ keyNameEsc b! "section" ++ strValue l.sect else []) =
      (if ¬ (l.sect = [] ∨ f.compatmode = true) then 44 :: [32] ++ keyNameEsc b! "section" ++ strValue l.sect else []) := by
    by_cases he : l.sect = [] <;> cases f.compatmode <;> simp [he, commaSp]
  rw [c1, c2]
  have d1 : ∀ (x : List (Str × JVal)), (if l.opcodes = [] then [] else x) = if ¬ l.opcodes = [] then x else [] := by
    intro x; by_cases he : l.opcodes = [] <;> simp [he]
  have d2 : ∀ (x : List (Str × JVal)), (if l.sect = [] ∨ f.compatmode = true then [] else x) = if ¬ (l.sect = [] ∨ f.compatmode = true) then x else [] := by
    intro x; by_cases he : l.sect = [] ∨ f.compatmode = true <;> simp [he]
  rw [d1, d2]
  simp only [List.nil_append, List.append_assoc, List.append_nil,
        List.cons_append, commaSp, keyName_eq (k := b! "labels") (by decide), keyName_eq (k := b! "source") (by decide), keyName_eq (k := b! "text") (by decide)] at this ⊢
  exact this

theorem reads_document (d : JsonDoc) (hl : ∀ l ∈ d.lines, LineWritable d.filter l) (hop : ∀ l ∈ d.lines, ∀ o ∈ l.opcodes, NoEscape o)
    (hd : ∀ p ∈ d.labels, NoControl p.1) :
    Reads (documentJson d.filter d.lines d.labels (if d.reproducible then none else some d.time) d.filteredCount) d.write := by
  have t1 := ReadsTail.cons (k := b! "filteredCount") (by decide) (reads_num d.filteredCount) wsp ReadsTail.nil
  have t2 := t1.optNum (k := b! "parsingTime") (w := [32]) (if d.reproducible then none else some d.time) (by decide) wsp
  have hlab := reads_obj_sep wsp (fun p : LabelPair => p.1) (fun p => .num p.2) (fun p => intToDec p.2) d.labels hd
    (fun p _ => reads_num p.2)
  have t3 := t2.cons (k := b! "labelDefinitions") (by decide) hlab wsn
  have hasm := reads_arr wsn (lineJson d.filter.compatmode (!d.filter.dontMaskFilenames)) (writeLine d.filter) d.lines
    (fun l h => reads_line d.filter (hl l h) (hop l h))
  have := (t3 b! "asm" _ _ (by decide) hasm).obj
  unfold documentJson JsonDoc.write
  have d1 : (if d.reproducible then [] else commaSp ++ keyName b! "parsingTime" ++ intToDec d.time) =
      numText b! "parsingTime" [32] (if d.reproducible then none else some d.time) := by
    cases d.reproducible <;> rfl
  rw [d1]
  have e : d.labels.map writeLabelDef = d.labels.map fun p => keyNameEsc p.1 ++ intToDec p.2 := rfl
  rw [e]
  simp only [List.nil_append, List.append_assoc, List.append_nil,
        List.cons_append, commaSp, keyName_eq (k := b! "asm") (by decide), keyName_eq (k := b! "labelDefinitions") (by decide), keyName_eq (k := b! "filteredCount") (by decide)] at this ⊢
  exact this

end AsmParser
