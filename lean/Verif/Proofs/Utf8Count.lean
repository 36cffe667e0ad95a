/-
Helper lemmas: counting the characters of UTF-8 texts.
-/
import Verif.Proofs.Utf8
import Verif.Proofs.ObjAngles
import Verif.Spec.Utf8

namespace AsmParser

theorem encode_shape (n : Nat) (h : n < 0x110000) :
    (n < 128 ∧ utf8Encode n = [UInt8.ofNat n]) ∨
      (charCount (utf8Encode n) = 1 ∧ ∀ c ∈ utf8Encode n, ¬ c < 128) := by
  have big : ∀ k, 128 ≤ k → k < 256 → ¬ UInt8.ofNat k < 128 := by
    intro k h1 h2 h3
    rw [UInt8.lt_iff_toNat_lt, UInt8.toNat_ofNat'] at h3
    simp at h3; omega
  have head : ∀ k, 192 ≤ k → k < 256 → (!(128 ≤ UInt8.ofNat k && UInt8.ofNat k ≤ 191)) = true := by
    intro k h1 h2
    rw [Bool.not_eq_true', Bool.and_eq_false_iff]
    refine .inr (decide_eq_false fun h3 => ?_)
    rw [UInt8.le_iff_toNat_le, UInt8.toNat_ofNat'] at h3
    simp at h3; omega
  have cont : ∀ k, 128 ≤ k → k < 192 → (!(128 ≤ UInt8.ofNat k && UInt8.ofNat k ≤ 191)) = false := by
    intro k h1 h2
    rw [Bool.not_eq_false', Bool.and_eq_true]
    constructor
    · refine decide_eq_true ?_
      rw [UInt8.le_iff_toNat_le, UInt8.toNat_ofNat']
      simp; omega
    · refine decide_eq_true ?_
      rw [UInt8.le_iff_toNat_le, UInt8.toNat_ofNat']
      simp; omega
  unfold utf8Encode
  split
  · exact .inl ⟨by assumption, rfl⟩
  refine .inr ?_
  split
  · refine ⟨?_, ?_⟩
    · simp only [charCount, List.filter_cons, List.filter_nil, head (192 + n / 64) (by omega) (by omega),
        cont (128 + n % 64) (by omega) (by omega)]
      rfl
    · intro c hc
      simp only [List.mem_cons, List.not_mem_nil, or_false] at hc
      rcases hc with rfl | rfl <;> exact big _ (by omega) (by omega)
  split
  · refine ⟨?_, ?_⟩
    · simp only [charCount, List.filter_cons, List.filter_nil, head (224 + n / 4096) (by omega) (by omega),
        cont (128 + n / 64 % 64) (by omega) (by omega), cont (128 + n % 64) (by omega) (by omega)]
      rfl
    · intro c hc
      simp only [List.mem_cons, List.not_mem_nil, or_false] at hc
      rcases hc with rfl | rfl | rfl <;> exact big _ (by omega) (by omega)
  · refine ⟨?_, ?_⟩
    · simp only [charCount, List.filter_cons, List.filter_nil, head (240 + n / 262144) (by omega) (by omega),
        cont (128 + n / 4096 % 64) (by omega) (by omega), cont (128 + n / 64 % 64) (by omega) (by omega),
        cont (128 + n % 64) (by omega) (by omega)]
      rfl
    · intro c hc
      simp only [List.mem_cons, List.not_mem_nil, or_false] at hc
      rcases hc with rfl | rfl | rfl | rfl <;> exact big _ (by omega) (by omega)

theorem charCount_encode (n : Nat) (h : n < 0x110000) : charCount (utf8Encode n) = 1 := by
  rcases encode_shape n h with ⟨h1, h2⟩ | h
  · rw [h2]
    have : (!(128 ≤ UInt8.ofNat n && UInt8.ofNat n ≤ 191)) = true := by
      rw [Bool.not_eq_true', Bool.and_eq_false_iff]
      refine .inl (decide_eq_false fun h3 => ?_)
      rw [UInt8.le_iff_toNat_le, UInt8.toNat_ofNat'] at h3
      simp at h3; omega
    simp only [charCount, List.filter_cons, this]
    rfl
  · exact h.1

theorem charCount_encodes (ns : List Nat) (h : ∀ n ∈ ns, n < 0x110000) : charCount (ns.flatMap utf8Encode) = ns.length := by
  induction ns with
  | nil => rfl
  | cons n ns ih =>
    rw [List.flatMap_cons, charCount_append, charCount_encode n (h n (by simp)), ih fun m hm => h m (by simp [hm]), List.length_cons]
    omega

/-- An ASCII byte stands between two characters. -/
theorem encode_split {ns : List Nat} (h : ∀ n ∈ ns, n < 0x110000) {a b : Str} {c : Byte} (e : ns.flatMap utf8Encode = a ++ c :: b)
    (hc : c < 128) : ∃ xs y ys, ns = xs ++ y :: ys ∧ a = xs.flatMap utf8Encode ∧ utf8Encode y = [c] ∧ b = ys.flatMap utf8Encode := by
  induction ns generalizing a with
  | nil => simp at e
  | cons n ns ih =>
    have hn := h n (by simp)
    have ih := fun {a : Str} => @ih (fun m hm => h m (by simp [hm])) a
    rw [List.flatMap_cons] at e
    rcases encode_shape n hn with ⟨h1, h2⟩ | ⟨-, h2⟩
    · rw [h2] at e
      cases a with
      | nil =>
        injection e with e1 e2
        exact ⟨[], n, ns, rfl, rfl, by rw [h2, e1], e2.symm⟩
      | cons d a =>
        injection e with e1 e2
        obtain ⟨xs, y, ys, rfl, rfl, hy, rfl⟩ := ih e2
        refine ⟨n :: xs, y, ys, rfl, ?_, hy, rfl⟩
        rw [List.flatMap_cons, h2, e1]; rfl
    · rw [List.append_eq_append_iff] at e
      rcases e with ⟨a', e1, e2⟩ | ⟨c', e1, e2⟩
      · obtain ⟨xs, y, ys, rfl, rfl, hy, rfl⟩ := ih e2
        exact ⟨n :: xs, y, ys, rfl, e1, hy, rfl⟩
      · cases c' with
        | nil =>
          rw [List.append_nil] at e1
          obtain ⟨xs, y, ys, rfl, e3, hy, rfl⟩ := ih (a := []) e2.symm
          refine ⟨n :: xs, y, ys, rfl, ?_, hy, rfl⟩
          rw [List.flatMap_cons, ← e3, List.append_nil, e1]
        | cons d c' =>
          injection e2 with e3 e4
          subst e3
          exact absurd hc (h2 c (by rw [e1]; simp))

theorem encode_zero {n : Nat} (h : 0 ∉ utf8Encode n) : n ≠ 0 := by
  rintro rfl
  exact h (by decide)

/-- The text after an ASCII character of a UTF-8 text. -/
theorem ValidUtf8.rest {c : Byte} {t : Str} (h : ValidUtf8 (c :: t)) (hc : c < 128) : ValidUtf8 t := by
  obtain ⟨ns, hs, e⟩ := h
  obtain ⟨xs, y, ys, rfl, -, -, rfl⟩ := encode_split (fun n hn => (hs n hn).2) (a := []) e.symm hc
  exact ⟨ys, fun n hn => hs n (by simp [hn]), rfl⟩

theorem counted_utf8 {t : Str} (h : ValidUtf8 t) (h0 : 0 ∉ t) : Counted Locale.utf8 t := by
  intro a c b e hc
  obtain ⟨ns, hs, e'⟩ := h
  obtain ⟨xs, y, ys, rfl, rfl, -, -⟩ := encode_split (fun n hn => (hs n hn).2) (e'.symm.trans e) hc
  rw [charCount_encodes xs fun n hn => (hs n (by simp [hn])).2]
  refine ustrlenAux_encode xs (fun n hn => ⟨encode_zero fun hz => h0 ?_, hs n (by simp [hn])⟩) _ (Nat.le_refl _)
  rw [e']
  exact List.mem_flatMap.2 ⟨n, by simp [hn], hz⟩

end AsmParser
