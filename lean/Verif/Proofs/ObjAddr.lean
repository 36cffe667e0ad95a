/-
Helper lemmas: what the address loop of the objdump parser computes.
-/
import Verif.Proofs.ObjRead
import Verif.Spec.Numbers

namespace AsmParser

theorem hexVal_append (a b : Str) : hexVal (a ++ b) = hexVal a * 16 ^ b.length + hexVal b := by
  induction b using snoc_induct with
  | nil => simp [hexVal]
  | snoc b c ih =>
    rw [← List.append_assoc]
    simp only [hexVal, List.foldl_append, List.foldl_cons, List.foldl_nil, List.length_append, List.length_cons,
      List.length_nil, Nat.pow_succ] at *
    rw [ih]
    grind

theorem hexVal_snoc (a : Str) (c : Byte) : hexVal (a ++ [c]) = hexVal a * 16 + hexDigit c := by
  simp [hexVal]

theorem hexDigit_eq {c : Byte} (h : isHex c = true) : hex2int c = hexDigit c ∧ hexDigit c < 16 :=
  byte_forall (P := fun c => isHex c = true → hex2int c = hexDigit c ∧ hexDigit c < 16) (by decide +kernel) h

/-- Little-endian value. -/
def lval : Str → Nat
  | [] => 0
  | c :: cs => hexDigit c + 16 * lval cs

theorem lval_reverse (w : Str) : lval w.reverse = hexVal w := by
  induction w using snoc_induct with
  | nil => rfl
  | snoc w c ih => rw [hexVal_snoc, List.reverse_append]; simp [lval, ih]; omega

theorem addrLoop_zero {w : Str} (hw : ∀ c ∈ w, isHex c = true) (h0 : lval w = 0) (a : AddrAcc) :
    (addrLoop w a).addr = a.addr ∧ (addrLoop w a).ub = a.ub := by
  induction w generalizing a with
  | nil => exact ⟨rfl, rfl⟩
  | cons c w ih =>
    have hc := hw c (by simp)
    have := hexDigit_eq hc
    simp only [lval] at h0
    rw [addrLoop]
    simp only [hc, Bool.not_true, Bool.false_eq_true, ↓reduceIte, this.1, show hexDigit c = 0 by omega, ne_eq,
      not_true_eq_false]
    exact ih (fun c h => hw c (by simp [h])) (by omega) _

theorem wrap32_small {n : Int} (h : 0 ≤ n) (h2 : n < 2147483648) : wrap32 n = n := by
  simp [wrap32, Int.emod_eq_of_lt h (by omega : n < 4294967296), h2]

theorem wrap32_big {n : Int} (h : 2147483648 ≤ n) (h2 : n < 4294967296) : wrap32 n = n - 4294967296 := by
  simp [wrap32, Int.emod_eq_of_lt (by omega : 0 ≤ n) h2]; omega

theorem pow16_dvd32 {k : Nat} (h : k < 8) : ∃ m, 4294967296 = m * 16 ^ (k + 1) :=
  ⟨16 ^ (7 - k), by rw [← Nat.pow_add, show 7 - k + (k + 1) = 8 by omega]⟩

theorem pow16_dvd31 {k : Nat} (h : k < 8) : ∃ m, 2147483648 = m * 16 ^ (k + 1) ∨ 16 ^ (k + 1) = 4294967296 := by
  by_cases h7 : k = 7
  · subst h7; exact ⟨0, .inr (by decide)⟩
  · exact ⟨8 * 16 ^ (6 - k), .inl (by rw [Nat.mul_assoc, ← Nat.pow_add, show 6 - k + (k + 1) = 7 by omega])⟩

/-- The result of the address loop when the number fits 32 bits. -/
theorem addrLoop_val {w : Str} (hw : ∀ c ∈ w, isHex c = true) (k : Nat) (hk : k ≤ 8) (hv : lval w * 16 ^ k < 4294967296)
    (a : AddrAcc) (ha : a.bits = 4 * k) :
    (addrLoop w a).addr = a.addr + wrap32 (lval w * 16 ^ k) ∧ (addrLoop w a).ub = a.ub := by
  induction w generalizing k a with
  | nil => simp [addrLoop, lval, wrap32]
  | cons c w ih =>
    have hc := hw c (by simp)
    have hd := hexDigit_eq hc
    by_cases hk8' : k = 8
    · have h0 : lval (c :: w) = 0 := by
        subst hk8'
        have : (16 : Nat) ^ 8 = 4294967296 := by decide
        rw [this] at hv
        omega
      have := addrLoop_zero hw h0 a
      rw [this.1, this.2, h0]
      simp [wrap32]
    · have hk8 : k < 8 := by omega
      rw [addrLoop]
      simp only [hc, Bool.not_true, Bool.false_eq_true, ↓reduceIte, hd.1]
      have hb : ¬ (a.bits < 0 ∨ 32 ≤ a.bits) := by omega
      have hbn : a.bits.toNat = 4 * k := by omega
      have hpow : (2 : Int) ^ (4 * k) = ((16 ^ k : Nat) : Int) := by
        rw [Int.pow_mul]; norm_cast
      have hbits : addBits a.bits = 4 * (k + 1 : Nat) := by
        unfold addBits; rw [if_neg (by omega)]; omega
      have hsplit : lval (c :: w) * 16 ^ k = hexDigit c * 16 ^ k + lval w * 16 ^ (k + 1) := by
        simp only [lval, Nat.pow_succ]; grind
      rw [hsplit] at hv
      have key : wrap32 ((hexDigit c * 16 ^ k : Nat) : Int) + wrap32 ((lval w * 16 ^ (k + 1) : Nat) : Int) =
          wrap32 ((hexDigit c * 16 ^ k + lval w * 16 ^ (k + 1) : Nat) : Int) := by
        by_cases hbig : hexDigit c * 16 ^ k < 2147483648
        · by_cases hbig2 : lval w * 16 ^ (k + 1) < 2147483648
          · have hsum : hexDigit c * 16 ^ k + lval w * 16 ^ (k + 1) < 2147483648 := by
              -- the low part is smaller than the granularity of the high part
              have hlow : hexDigit c * 16 ^ k < 16 ^ (k + 1) := by
                rw [Nat.pow_succ, Nat.mul_comm]
                exact Nat.mul_lt_mul_of_pos_left hd.2 (Nat.pow_pos (by decide))
              have hdvd := pow16_dvd31 hk8
              obtain ⟨m, hm | hm⟩ := hdvd
              · have : lval w < m := by
                  rw [hm] at hbig2
                  exact Nat.lt_of_mul_lt_mul_right hbig2
                have h2 : (lval w + 1) * 16 ^ (k + 1) ≤ m * 16 ^ (k + 1) := Nat.mul_le_mul_right _ this
                rw [← hm] at h2
                rw [Nat.add_mul] at h2
                omega
              · have : lval w = 0 := by
                  rw [hm] at hbig2; omega
                rw [this]; omega
            rw [wrap32_small (by omega) (by omega), wrap32_small (by omega) (by omega), wrap32_small (by omega) (by omega)]
            omega
          · rw [wrap32_small (by omega) (by omega), wrap32_big (by omega) (by omega), wrap32_big (by omega) (by omega)]
            omega
        · have h0 : lval w = 0 := by
            have : k = 7 := by
              have hk7 : k < 8 := by omega
              have : k < 7 → False := by
                intro h
                have h1 : 16 ^ k ≤ 16 ^ 6 := Nat.pow_le_pow_right (by decide) (by omega)
                have h2 : hexDigit c * 16 ^ k ≤ 15 * 16 ^ 6 := Nat.mul_le_mul (by omega) h1
                have h3 : 15 * 16 ^ 6 < 2147483648 := by decide
                exact hbig (Nat.lt_of_le_of_lt h2 h3)
              rcases Nat.lt_or_ge k 7 with h | h
              · exact (this h).elim
              · omega
            subst this
            have : (16 : Nat) ^ (7 + 1) = 4294967296 := by decide
            rw [this] at hv
            omega
          simp [h0, wrap32]
      have hrest : lval w * 16 ^ (k + 1) < 4294967296 := by omega
      by_cases hz : hexDigit c = 0
      · simp only [hz, ne_eq, not_true_eq_false, ↓reduceIte]
        have := ih (fun c h => hw c (by simp [h])) (k + 1) (by omega) hrest { a with bits := addBits a.bits } hbits
        rw [this.1, this.2]
        refine ⟨?_, rfl⟩
        have e : ((lval (c :: w) : Int) * 16 ^ k) = ((hexDigit c * 16 ^ k + lval w * 16 ^ (k + 1) : Nat) : Int) := by
          rw [← hsplit]; push_cast; rfl
        rw [e, ← key, hz]
        simp [wrap32]
      · simp only [ne_eq, hz, not_false_eq_true, ↓reduceIte, hb, hbn]
        have := ih (fun c h => hw c (by simp [h])) (k + 1) (by omega) hrest
          { a with addr := a.addr + wrap32 (hexDigit c * 2 ^ (4 * k)), bits := addBits a.bits } hbits
        rw [this.1, this.2]
        refine ⟨?_, rfl⟩
        have e : ((lval (c :: w) : Int) * 16 ^ k) = ((hexDigit c * 16 ^ k + lval w * 16 ^ (k + 1) : Nat) : Int) := by
          rw [← hsplit]; push_cast; rfl
        have e2 : (lval w : Int) * 16 ^ (k + 1) = ((lval w * 16 ^ (k + 1) : Nat) : Int) := by
          rw [Int.natCast_mul, Int.natCast_pow]; rfl
        rw [e, ← key, hpow, e2, ← Int.natCast_mul]
        exact Int.add_assoc _ _ _

/-- The result of the address loop on a text of hexadecimal digits. -/
theorem addrLoop_hex {w : Str} (hw : ∀ c ∈ w, isHex c = true) (hv : hexVal w < 4294967296) :
    (addrLoop w.reverse {}).addr = wrap32 (hexVal w) ∧ (addrLoop w.reverse {}).ub = false := by
  have := addrLoop_val (w := w.reverse) (by simpa using hw) 0 (by omega) (by rw [lval_reverse]; omega) {} rfl
  rw [this.1, this.2, lval_reverse]
  simp

theorem addrLoop_ub_mono (w : Str) (a : AddrAcc) (h : a.ub = true) : (addrLoop w a).ub = true := by
  induction w generalizing a with
  | nil => exact h
  | cons c w ih =>
    rw [addrLoop]
    by_cases hc : isHex c = true
    · simp only [hc, Bool.not_true, Bool.false_eq_true, ↓reduceIte]
      refine ih _ ?_
      by_cases h1 : hex2int c = 0
      · simp [h1, h]
      · by_cases h2 : a.bits < 0 ∨ 32 ≤ a.bits <;> simp [h1, h2, h]
    · simp [hc, h]

/-- A number that does not fit 32 bits makes the loop shift out of range (up to 64 digits, where the 8-bit shift
count wraps back to zero). -/
theorem addrLoop_high {w : Str} (hw : ∀ c ∈ w, isHex c = true) (k : Nat) (hk : k + w.length ≤ 64)
    (hv : 4294967296 ≤ lval w * 16 ^ k) (a : AddrAcc) (ha : a.bits = if 32 ≤ k then 4 * (k : Int) - 256 else 4 * k) :
    (addrLoop w a).ub = true := by
  induction w generalizing k a with
  | nil => simp [lval] at hv
  | cons c w ih =>
    have hc := hw c (by simp)
    have hd := hexDigit_eq hc
    simp only [List.length_cons] at hk
    rw [addrLoop]
    simp only [hc, Bool.not_true, Bool.false_eq_true, ↓reduceIte, hd.1]
    have hbits : addBits a.bits = if 32 ≤ k + 1 then 4 * ((k + 1 : Nat) : Int) - 256 else 4 * (k + 1 : Nat) := by
      unfold addBits; split at ha <;> split <;> (try split) <;> omega
    by_cases hz : hexDigit c = 0
    · simp only [hz, ne_eq, not_true_eq_false, ↓reduceIte]
      refine ih (fun c h => hw c (by simp [h])) (k + 1) (by omega) ?_ _ hbits
      have : lval (c :: w) * 16 ^ k = lval w * 16 ^ (k + 1) := by
        simp only [lval, hz, Nat.pow_succ]; grind
      omega
    · simp only [ne_eq, hz, not_false_eq_true, ↓reduceIte]
      by_cases hb : a.bits < 0 ∨ 32 ≤ a.bits
      · simp only [hb, ↓reduceIte]
        exact addrLoop_ub_mono _ _ rfl
      · simp only [hb, ↓reduceIte]
        refine ih (fun c h => hw c (by simp [h])) (k + 1) (by omega) ?_ _ hbits
        have hk8 : k < 8 := by split at ha <;> omega
        have hsplit : lval (c :: w) * 16 ^ k = hexDigit c * 16 ^ k + lval w * 16 ^ (k + 1) := by
          simp only [lval, Nat.pow_succ]; grind
        rw [hsplit] at hv
        -- the low digit cannot reach 2^32 on its own
        have hlow : hexDigit c * 16 ^ k < 16 ^ (k + 1) := by
          rw [Nat.pow_succ, Nat.mul_comm]
          exact Nat.mul_lt_mul_of_pos_left hd.2 (Nat.pow_pos (by decide))
        have hdvd := pow16_dvd32 hk8
        obtain ⟨m, hm⟩ := hdvd
        rw [hm] at hv ⊢
        have : m * 16 ^ (k + 1) < (lval w + 1) * 16 ^ (k + 1) := by rw [Nat.add_mul]; omega
        have := Nat.lt_of_mul_lt_mul_right this
        exact Nat.mul_le_mul_right _ (by omega)

theorem addrLoop_hex_ub {w : Str} (hw : ∀ c ∈ w, isHex c = true) (hl : w.length ≤ 64) (hv : 4294967296 ≤ hexVal w) :
    (addrLoop w.reverse {}).ub = true :=
  addrLoop_high (w := w.reverse) (by simpa using hw) 0 (by simpa using hl) (by rw [lval_reverse]; omega) {} rfl

/-- Only the digits before the first other character count. -/
theorem addrLoop_prefix (h rest : Str) (hh : ∀ c ∈ h, isHex c = true) (hr : ∀ c, rest.head? = some c → isHex c = false)
    (a : AddrAcc) : (addrLoop (h ++ rest) a).ub = (addrLoop h a).ub ∧ (addrLoop (h ++ rest) a).addr = (addrLoop h a).addr := by
  induction h generalizing a with
  | nil =>
    cases rest with
    | nil => exact ⟨rfl, rfl⟩
    | cons c r => simp [addrLoop, hr c rfl]
  | cons c h ih =>
    rw [List.cons_append, addrLoop, addrLoop]
    simp only [hh c (by simp), Bool.not_true, Bool.false_eq_true, ↓reduceIte]
    exact ih (fun c hc => hh c (by simp [hc])) _

/-- No undefined shift if every run of digits at the end of the text is small. -/
theorem addrLoop_no_ub (t : Str) (h : ∀ w, w <:+ t → (∀ c ∈ w, isHex c = true) → hexVal w < 4294967296) :
    (addrLoop t.reverse {}).ub = false := by
  have e : t.reverse = t.reverse.takeWhile isHex ++ t.reverse.dropWhile isHex := (List.takeWhile_append_dropWhile).symm
  have hall : ∀ c ∈ t.reverse.takeWhile isHex, isHex c = true := by
    intro c hc
    exact List.all_eq_true.1 (List.all_takeWhile (p := isHex) (l := t.reverse)) c hc
  rw [e, (addrLoop_prefix _ _ hall ?_ _).1]
  · have hs : (t.reverse.takeWhile isHex).reverse <:+ t := by
      have : t.reverse.takeWhile isHex <+: t.reverse := List.takeWhile_prefix _
      obtain ⟨r, hr⟩ := this
      refine ⟨r.reverse, ?_⟩
      rw [← List.reverse_append, hr, List.reverse_reverse]
    have := addrLoop_hex (w := (t.reverse.takeWhile isHex).reverse) (by simpa using hall) (h _ hs (by simpa using hall))
    simpa using this.2
  · intro c hc
    have := List.head?_dropWhile_not isHex t.reverse
    rw [hc] at this
    simpa using this

end AsmParser
