/-
Helper lemmas: well-formed UTF-8 strings.
-/
import Verif.Proofs.Utf8
import Verif.Spec.Utf8

namespace AsmParser

theorem ValidUtf8.nil : ValidUtf8 [] := ⟨[], by simp, rfl⟩

theorem ValidUtf8.append {a b : Str} (ha : ValidUtf8 a) (hb : ValidUtf8 b) : ValidUtf8 (a ++ b) := by
  obtain ⟨ns, h1, rfl⟩ := ha
  obtain ⟨ms, h2, rfl⟩ := hb
  refine ⟨ns ++ ms, ?_, by simp⟩
  intro n hn
  simp only [List.mem_append] at hn
  exact hn.elim (h1 n) (h2 n)

theorem utf8Encode_ascii (c : Byte) (h : c < 128) : utf8Encode c.toNat = [c] := by
  have : c.toNat < 128 := h
  unfold utf8Encode
  rw [if_pos this]
  simp

theorem ValidUtf8.ascii {a : Str} (h : Ascii7 a) : ValidUtf8 a := by
  refine ⟨a.map UInt8.toNat, ?_, ?_⟩
  · intro n hn
    simp only [List.mem_map] at hn
    obtain ⟨c, hc, rfl⟩ := hn
    have : c.toNat < 128 := h c hc
    exact ⟨.inl (by omega), by omega⟩
  · induction a with
    | nil => rfl
    | cons c a ih =>
      rw [List.map_cons, List.flatMap_cons, utf8Encode_ascii c (h c (by simp)), ← ih (fun d hd => h d (by simp [hd]))]
      rfl

theorem ValidUtf8.one {c : Byte} (h : c < 128) : ValidUtf8 [c] := .ascii (by simpa [Ascii7] using h)

/-- The bytes of an encoded code point: one ASCII byte or none. -/
theorem utf8Encode_bytes (n : Nat) (hn : Scalar n) : (∃ c, c < 128 ∧ utf8Encode n = [c]) ∨ ∀ c ∈ utf8Encode n, ¬ c < 128 := by
  have key : ∀ k, 128 ≤ k → k < 256 → ¬ UInt8.ofNat k < 128 := by
    intro k h1 h2
    rw [UInt8.lt_iff_toNat_lt, UInt8.toNat_ofNat_of_lt' h2]
    have : (128 : Byte).toNat = 128 := rfl
    omega
  obtain ⟨h1, h2⟩ := hn
  unfold utf8Encode
  split
  · rename_i h
    refine .inl ⟨UInt8.ofNat n, ?_, rfl⟩
    rw [UInt8.lt_iff_toNat_lt, UInt8.toNat_ofNat_of_lt' (by simp [UInt8.size]; omega)]
    exact h
  right
  split
  · intro c hc
    simp only [List.mem_cons, List.not_mem_nil, or_false] at hc
    rcases hc with rfl | rfl <;> exact key _ (by omega) (by omega)
  split
  · intro c hc
    simp only [List.mem_cons, List.not_mem_nil, or_false] at hc
    rcases hc with rfl | rfl | rfl <;> exact key _ (by omega) (by omega)
  · intro c hc
    simp only [List.mem_cons, List.not_mem_nil, or_false] at hc
    rcases hc with rfl | rfl | rfl | rfl <;> exact key _ (by omega) (by omega)

theorem ValidUtf8.cons_inv {s : Str} (h : ValidUtf8 s) (hs : s ≠ []) :
    ∃ n r, Scalar n ∧ ValidUtf8 r ∧ s = utf8Encode n ++ r := by
  obtain ⟨ns, h1, rfl⟩ := h
  cases ns with
  | nil => exact absurd rfl hs
  | cons n ns => exact ⟨n, ns.flatMap utf8Encode, h1 n (by simp), ⟨ns, fun m hm => h1 m (by simp [hm]), rfl⟩, rfl⟩

theorem ValidUtf8.encode {n : Nat} (h : Scalar n) : ValidUtf8 (utf8Encode n) := ⟨[n], by simpa using h, by simp⟩

/-- An ASCII byte is a boundary. -/
theorem ValidUtf8.split {a b : Str} {c : Byte} (hc : c < 128) (h : ValidUtf8 (a ++ c :: b)) :
    ValidUtf8 a ∧ ValidUtf8 (c :: b) := by
  obtain ⟨ns, h1, h2⟩ := h
  induction ns generalizing a with
  | nil => simp at h2
  | cons n ns ih =>
    have hv : ValidUtf8 (ns.flatMap utf8Encode) := ⟨ns, fun m hm => h1 m (by simp [hm]), rfl⟩
    have hn := h1 n (by simp)
    rw [List.flatMap_cons, List.append_eq_append_iff] at h2
    rcases h2 with ⟨x, hx1, hx2⟩ | ⟨x, hx1, hx2⟩
    · cases x with
      | nil =>
        simp only [List.append_nil] at hx1
        simp only [List.nil_append] at hx2
        exact ⟨hx1 ▸ .encode hn, hx2 ▸ hv⟩
      | cons d x =>
        simp only [List.cons_append, List.cons.injEq] at hx2
        obtain ⟨rfl, rfl⟩ := hx2
        rcases utf8Encode_bytes n hn with ⟨e, he, h⟩ | h
        · rw [h] at hx1
          have : a = [] ∧ x = [] := by
            have := congrArg List.length hx1
            simp at this
            exact ⟨List.eq_nil_of_length_eq_zero (by omega), List.eq_nil_of_length_eq_zero (by omega)⟩
          obtain ⟨rfl, rfl⟩ := this
          exact ⟨.nil, ValidUtf8.append (a := [c]) (.one hc) hv⟩
        · exact absurd hc (h c (by rw [hx1]; simp))
    · obtain ⟨h3, h4⟩ := ih (fun m hm => h1 m (by simp [hm])) hx2.symm
      exact ⟨hx1 ▸ (ValidUtf8.encode hn).append h3, h4⟩

/-- The length of the first encoded character. -/
def firstLen (s : Str) : Int :=
  match s with
  | [] => 0
  | c :: _ => if c < 128 then 1 else utf8Mblen s

theorem firstLen_encode (n : Nat) (r : Str) (h : Scalar n) : firstLen (utf8Encode n ++ r) = (utf8Encode n).length := by
  rcases utf8Encode_bytes n h with ⟨c, hc, e⟩ | h'
  · rw [e]; simp [firstLen, hc]
  · have hp := utf8Encode_length_pos n
    have h0 : n ≠ 0 := by rintro rfl; exact h' 0 (by decide) (by decide)
    have := utf8Mblen_encode n r h0 h.1 h.2
    revert this
    cases he : utf8Encode n with
    | nil => rw [he] at hp; cases hp
    | cons c e =>
      intro this
      rw [← this]
      simp only [List.cons_append, firstLen]
      rw [if_neg (h' c (by rw [he]; simp))]

/-- What follows a valid prefix is valid. -/
theorem ValidUtf8.cancel {v r : Str} (hv : ValidUtf8 v) (h : ValidUtf8 (v ++ r)) : ValidUtf8 r := by
  obtain ⟨ns, h1, rfl⟩ := hv
  induction ns with
  | nil => exact h
  | cons n ns ih =>
    refine ih (fun m hm => h1 m (by simp [hm])) ?_
    rw [List.flatMap_cons, List.append_assoc] at h
    have hn := h1 n (by simp)
    obtain ⟨m, r', hm, hr', e⟩ := h.cons_inv (by
      have hp := utf8Encode_length_pos n
      intro e; have hl := congrArg List.length e
      rw [List.length_append, List.length_nil] at hl; omega)
    have hl : (utf8Encode n).length = (utf8Encode m).length := by
      have e1 := firstLen_encode n (ns.flatMap utf8Encode ++ r) hn
      rw [e, firstLen_encode m r' hm] at e1
      omega
    rw [(List.append_inj e hl).2]
    exact hr'

theorem ValidUtf8.right {a b : Str} {c : Byte} (hc : c < 128) (h : ValidUtf8 (a ++ c :: b)) : ValidUtf8 b :=
  ValidUtf8.cancel (v := [c]) (.one hc) (h.split hc).2

theorem ValidUtf8.left {a b : Str} {c : Byte} (hc : c < 128) (h : ValidUtf8 (a ++ c :: b)) : ValidUtf8 a := (h.split hc).1

/-- A check that valid strings pass. -/
def utf8Check : Nat → Str → Bool
  | 0, s => s.isEmpty
  | n + 1, s => s.isEmpty || (decide (0 < firstLen s) && utf8Check n (s.drop (firstLen s).toNat))

theorem utf8Check_ok (n : Nat) (s : Str) (h : ValidUtf8 s) (hn : s.length ≤ n) : utf8Check n s = true := by
  induction n generalizing s with
  | zero => have := List.eq_nil_of_length_eq_zero (Nat.le_zero.1 hn); subst this; rfl
  | succ n ih =>
    rw [utf8Check]
    by_cases hs : s = []
    · subst hs; rfl
    · obtain ⟨m, r, hm, hr, rfl⟩ := h.cons_inv hs
      have := utf8Encode_length_pos m
      rw [firstLen_encode m r hm]
      simp only [Int.toNat_natCast, List.drop_left, Bool.or_eq_true, Bool.and_eq_true, decide_eq_true_eq]
      refine .inr ⟨by omega, ih r hr ?_⟩
      simp only [List.length_append] at hn
      omega

/-! ### Copying bytes one at a time -/

/-- `x` is a valid string followed by the bytes read of a character that may be incomplete; so is the input `u`. -/
def Tracks (u x : Str) : Prop := ∃ v r t, u = v ++ r ∧ x = t ++ r ∧ ValidUtf8 v ∧ ValidUtf8 t

theorem Tracks.of_valid {u x : Str} (hu : ValidUtf8 u) (hx : ValidUtf8 x) : Tracks u x := ⟨u, [], x, by simp, by simp, hu, hx⟩

theorem Tracks.valid {u x : Str} (h : Tracks u x) (hu : ValidUtf8 u) : ValidUtf8 x := by
  obtain ⟨v, r, t, rfl, rfl, hv, ht⟩ := h
  exact ht.append (hv.cancel hu)

theorem Tracks.snoc {u x : Str} (h : Tracks u x) (c : Byte) : Tracks (u ++ [c]) (x ++ [c]) := by
  obtain ⟨v, r, t, rfl, rfl, hv, ht⟩ := h
  exact ⟨v, r ++ [c], t, by simp, by simp, hv, ht⟩

theorem Tracks.ascii {u x : Str} (h : Tracks u x) (hx : Ascii7 x) : ValidUtf8 u := by
  obtain ⟨v, r, t, rfl, rfl, hv, ht⟩ := h
  exact hv.append (.ascii fun c hc => hx c (by simp [hc]))

end AsmParser
