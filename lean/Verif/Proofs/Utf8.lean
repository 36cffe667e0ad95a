/-
Helper lemmas: counting characters of UTF-8 strings.
-/
import Verif.Model.Utils
import Verif.Spec.Json

namespace AsmParser

theorem ofNat_le {k : Nat} {c : Byte} (h : k < 256) : UInt8.ofNat k ≤ c ↔ k ≤ c.toNat := by
  rw [UInt8.le_iff_toNat_le, UInt8.toNat_ofNat_of_lt' h]
theorem le_ofNat {k : Nat} {c : Byte} (h : k < 256) : c ≤ UInt8.ofNat k ↔ c.toNat ≤ k := by
  rw [UInt8.le_iff_toNat_le, UInt8.toNat_ofNat_of_lt' h]
theorem ofNat_lt {k : Nat} {c : Byte} (h : k < 256) : UInt8.ofNat k < c ↔ k < c.toNat := by
  rw [UInt8.lt_iff_toNat_lt, UInt8.toNat_ofNat_of_lt' h]
theorem ofNat_eq {k : Nat} {c : Byte} (h : k < 256) : UInt8.ofNat k = c ↔ k = c.toNat := by
  rw [← UInt8.toNat_inj, UInt8.toNat_ofNat_of_lt' h]

theorem isCont_ofNat (k : Nat) : isCont (UInt8.ofNat (128 + k % 64)) = true := by
  unfold isCont
  simp only [Bool.and_eq_true, decide_eq_true_eq]
  rw [le_ofNat (by omega), ofNat_le (by omega)]
  have : (128 : Byte).toNat = 128 := rfl
  have : (191 : Byte).toNat = 191 := rfl
  omega

theorem utf8Len_ofNat (k : Nat) (h : k < 256) : utf8Len (UInt8.ofNat k) =
    if k < 128 then 1 else if 194 ≤ k ∧ k ≤ 223 then 2 else if 224 ≤ k ∧ k ≤ 239 then 3
    else if 240 ≤ k ∧ k ≤ 244 then 4 else 0 := by
  unfold utf8Len
  simp only [Bool.and_eq_true, decide_eq_true_eq]
  simp only [ofNat_lt h, le_ofNat h, ofNat_le h]
  rfl

/-- `mblen` of an encoded scalar value. -/
theorem utf8Mblen_encode (n : Nat) (rest : Str) (h0 : n ≠ 0) (h1 : n < 0xD800 ∨ 0xE000 ≤ n) (h2 : n < 0x110000) :
    utf8Mblen (utf8Encode n ++ rest) = (utf8Encode n).length := by
  have ne (k : Nat) (c : Byte) (h : k < 256) (h' : k ≠ c.toNat) : (UInt8.ofNat k == c) = false := by
    rw [beq_eq_false_iff_ne, Ne, ofNat_eq h]; exact h'
  unfold utf8Encode
  split
  · rename_i h
    have hk : n < 256 := by omega
    have hl : utf8Len (UInt8.ofNat n) = 1 := by rw [utf8Len_ofNat _ hk, if_pos h]
    unfold utf8Mblen
    simp only [List.cons_append, List.nil_append, hl, ne n 0 hk (by simp [h0]), ne n 224 hk (by simp; omega),
      ne n 237 hk (by simp; omega), ne n 240 hk (by simp; omega), ne n 244 hk (by simp; omega)]
    simp
  split
  · rename_i h h'
    have hk : 192 + n / 64 < 256 := by omega
    have hl : utf8Len (UInt8.ofNat (192 + n / 64)) = 2 := by
      rw [utf8Len_ofNat _ hk, if_neg (by omega), if_pos (by omega)]
    unfold utf8Mblen
    simp only [List.cons_append, List.nil_append, hl, ne _ 0 hk (by simp), ne _ 224 hk (by simp; omega),
      ne _ 237 hk (by simp; omega), ne _ 240 hk (by simp; omega), ne _ 244 hk (by simp; omega)]
    simp [isCont_ofNat, -UInt8.ofNat_add]
  split
  · rename_i h h' h''
    have hk : 224 + n / 4096 < 256 := by omega
    have hk2 : 128 + n / 64 % 64 < 256 := by omega
    have hl : utf8Len (UInt8.ofNat (224 + n / 4096)) = 3 := by
      rw [utf8Len_ofNat _ hk, if_neg (by omega), if_neg (by omega), if_pos (by omega)]
    unfold utf8Mblen
    simp only [List.cons_append, List.nil_append, hl, ne _ 0 hk (by simp),
      ne _ 240 hk (by simp; omega), ne _ 244 hk (by simp; omega)]
    simp [isCont_ofNat, -UInt8.ofNat_add, ofNat_eq hk, ofNat_lt hk2, le_ofNat hk2]
    omega
  · rename_i h h' h''
    have hk : 240 + n / 262144 < 256 := by omega
    have hk2 : 128 + n / 4096 % 64 < 256 := by omega
    have hl : utf8Len (UInt8.ofNat (240 + n / 262144)) = 4 := by
      rw [utf8Len_ofNat _ hk, if_neg (by omega), if_neg (by omega), if_neg (by omega), if_pos (by omega)]
    unfold utf8Mblen
    simp only [List.cons_append, List.nil_append, hl, ne _ 0 hk (by simp),
      ne _ 224 hk (by simp; omega), ne _ 237 hk (by simp; omega)]
    simp [isCont_ofNat, -UInt8.ofNat_add, ofNat_eq hk, ofNat_lt hk2, le_ofNat hk2]
    omega

theorem utf8Encode_length_pos (n : Nat) : 0 < (utf8Encode n).length := by
  unfold utf8Encode
  split
  · simp
  split
  · simp
  split <;> simp

theorem ustrlenAux_encode (ns : List Nat) (h : ∀ n ∈ ns, n ≠ 0 ∧ (n < 0xD800 ∨ 0xE000 ≤ n) ∧ n < 0x110000) (fuel : Nat)
    (hf : (ns.flatMap utf8Encode).length ≤ fuel) : ustrlenAux Locale.utf8 fuel (ns.flatMap utf8Encode) = ns.length := by
  induction ns generalizing fuel with
  | nil => cases fuel <;> simp [ustrlenAux]
  | cons n ns ih =>
    have hp := utf8Encode_length_pos n
    rw [List.flatMap_cons] at hf ⊢
    cases fuel with
    | zero => simp at hf; rw [hf.1] at hp; simp at hp
    | succ fuel =>
      have hn := h n (by simp)
      have hm : Locale.utf8.mblen (utf8Encode n ++ ns.flatMap utf8Encode) = (utf8Encode n).length :=
        utf8Mblen_encode n _ hn.1 hn.2.1 hn.2.2
      unfold ustrlenAux
      have he : (utf8Encode n ++ ns.flatMap utf8Encode).isEmpty = false := by
        cases h : utf8Encode n with
        | nil => rw [h] at hp; simp at hp
        | cons a b => rfl
      simp only [he, hm, Bool.false_eq_true, ↓reduceIte, Int.toNat_natCast]
      rw [if_neg (by omega)]
      have ihh := ih (fun m hm => h m (by simp [hm])) fuel (by rw [List.length_append] at hf; omega)
      rw [List.drop_left' rfl, ihh]
      split
      · simp; omega
      · rename_i hl
        have : ns = [] := by
          cases ns with
          | nil => rfl
          | cons m ns =>
            have := utf8Encode_length_pos m
            simp at hl
            rw [hl.1] at this; simp at this
        subst this
        simp

end AsmParser
