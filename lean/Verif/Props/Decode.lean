/-
Property C73: the output of binary mode for every input, line by line (`Verif/Spec/Decode.lean`).
-/
import Verif.Proofs.DecodeEnd
import Verif.Proofs.Utf8
import Verif.Spec.TextSamples

namespace AsmParser

theorem takeWhile_digits {d r : Str} (h1 : ∀ c ∈ d, isDigit c = true) (h2 : ∀ c, r.head? = some c → isDigit c = false) :
    (d ++ r).takeWhile isDigit = d := by
  rw [List.takeWhile_append_of_pos h1]
  cases r with
  | nil => simp
  | cons x r => simp [h2 x rfl]

theorem theReading_ok (L : Locale) : (theReading L).Ok L where
  low w hw hv := by
    have := (addrLoop_hex hw (by omega)).1
    rw [wrap32_small (by omega) (by omega)] at this
    exact this
  high w hw h1 h2 := by
    have := (addrLoop_hex hw (by omega)).1
    rw [wrap32_big (by omega) (by omega)] at this
    exact this
  digits d r hd h1 h2 hv := by
    have e : atoi (d ++ r) = decVal d := by
      cases d with
      | nil => exact absurd rfl hd
      | cons c d =>
        have hc := h1 c (by simp)
        have hs : isSpace c = false :=
          byte_forall (P := fun c => isDigit c = true → isSpace c = false) (by decide +kernel) hc
        have h3 : c ≠ c! '-' := by rintro rfl; simp [isDigit] at hc
        have h4 : c ≠ c! '+' := by rintro rfl; simp [isDigit] at hc
        have ht : (c :: (d ++ r)).takeWhile isDigit = c :: d := by
          rw [← List.cons_append]; exact takeWhile_digits h1 h2
        unfold atoi
        simp only [List.cons_append, List.dropWhile_cons, hs, Bool.false_eq_true, ↓reduceIte, beq_iff_eq, h3, h4, ht]
    unfold theReading
    dsimp only
    rw [e]
    by_cases h0 : (decVal d : Int) > 0
    · rw [if_neg (by omega), if_pos h0]
    · rw [if_neg (by omega), if_neg h0]; omega
  other n h := by
    have e : atoi n = 0 := by
      cases n with
      | nil => rfl
      | cons c n =>
        obtain ⟨h1, h2, h3, h4⟩ := h c rfl
        unfold atoi
        simp [h1, h2, h3, h4, decVal]
    unfold theReading
    simp [e]
  space c n hc := by
    have e : atoi (c :: n) = atoi n := by
      unfold atoi
      rw [List.dropWhile_cons_of_pos hc]
    unfold theReading
    dsimp only
    rw [e]
  plus d r h1 h2 hv := by
    have e : atoi (c! '+' :: (d ++ r)) = decVal d := by
      unfold atoi
      rw [List.dropWhile_cons_of_neg (by decide)]
      simp [takeWhile_digits h1 h2]
    unfold theReading
    dsimp only
    rw [e]
    by_cases h0 : (decVal d : Int) > 0
    · rw [if_neg (by omega), if_pos h0]
    · rw [if_neg (by omega), if_neg h0]; omega
  minus d r h1 h2 hv := by
    have e : atoi (c! '-' :: (d ++ r)) = -(decVal d : Int) := by
      unfold atoi
      rw [List.dropWhile_cons_of_neg (by decide)]
      simp [takeWhile_digits h1 h2]
    unfold theReading
    dsimp only
    rw [e]
    rw [if_neg (by omega), if_neg (by omega)]
  ascii hL w hw := ustrlen_ascii hL hw
  utf8 hL ns h := by
    subst hL
    exact ustrlenAux_encode ns (fun n hn => ⟨(h n hn).1, (h n hn).2.1, (h n hn).2.2⟩) _ (Nat.le_refl _)

theorem decode_parse (L : Locale) (f : Filter) (ls : List Str) (t : Str) (hls : ∀ l ∈ ls, (10 : Byte) ∉ l) (ht : (10 : Byte) ∉ t) :
    let p := objParse L f (unlines ls ++ t)
    let b := decodeLines (theReading L) (leftOut f.plt) f.libraryFunctions {} {} ls
    p.lines = b.lines ∧ p.labels = labelTable 1 p.lines ++ b.extra := by
  intro p b
  have h := decodeLines_ok (L := L) ls hls (CPagesAt.start f)
  have e : p = t.foldl (OParser.feed L) ((unlines ls).foldl (OParser.feed L) (start f)) := objParse_append L f _ _
  have hk : p.lines = ((unlines ls).foldl (OParser.feed L) (start f)).lines ∧
      p.labels = ((unlines ls).foldl (OParser.feed L) (start f)).labels := by
    rw [e]
    generalize (unlines ls).foldl (OParser.feed L) (start f) = q
    cases hs : q.st.stopParsing
    · rw [feed_read ht q hs]; exact ⟨rfl, rfl⟩
    · rw [foldl_stop hs]; exact ⟨rfl, rfl⟩
  rw [hk.1, hk.2]
  exact h

/-- C73: whatever the input is - complete lines `ls` and an unterminated rest `t` - the output lines and the table of labels are
those that the specification computes line by line from `ls`. -/
theorem C73_every_line (L : Locale) : ∃ R : Reading, R.Ok L ∧ ∀ (f : Filter) (ls : List Str) (t : Str),
    (∀ l ∈ ls, (10 : Byte) ∉ l) → (10 : Byte) ∉ t →
    let p := objParse L f (unlines ls ++ t)
    let b := decodeLines R (leftOut f.plt) f.libraryFunctions {} {} ls
    p.lines = b.lines ∧ p.labels = labelTable 1 p.lines ++ b.extra := by
  refine ⟨theReading L, theReading_ok L, decode_parse L⟩

/-- Every input is of this form. -/
theorem C73_all_inputs (s : Str) : ∃ ls t, s = unlines ls ++ t ∧ (∀ l ∈ ls, (10 : Byte) ∉ l) ∧ (10 : Byte) ∉ t := by
  induction s with
  | nil => exact ⟨[], [], rfl, by simp, by simp⟩
  | cons c s ih =>
    obtain ⟨ls, t, h1, h2, h3⟩ := ih
    by_cases hc : c = 10
    · exact ⟨[] :: ls, t, by simp [unlines, h1, hc], by simpa using h2, h3⟩
    · cases ls with
      | nil => exact ⟨[], c :: t, by simp [unlines, h1], by simp, by simp [h3, Ne.symm hc]⟩
      | cons l ls =>
        refine ⟨(c :: l) :: ls, t, by simp [unlines, h1], ?_, h3⟩
        intro x hx
        simp only [List.mem_cons] at hx
        rcases hx with rfl | hx
        · simp [h2 l (by simp), Ne.symm hc]
        · exact h2 x (by simp [hx])

/-! Lines of every kind. -/

example : lineKind false b! "  401126:\t55 48 \tpush <f>" = .code (some b! "401126") [b! "55", b! "48"] [] b! "push <f>" := by decide
example : lineKind false b! "  40:\t" = .code (some b! "40") [] [] [] := by decide
example : lineKind false b! "  40:\t...  x" = .code (some b! "40") [] b! "." b! "..  x" := by decide
example : lineKind false b! "  40: R_X\tf" = .code (some b! "40") [] b! "   R_X f" [] := by decide
example : lineKind false b! "  40:\t00 00 " = .code (some b! "40") [] b! "00 00 " [] := by decide
example : lineKind false b! "0000 <f>:" = .header b! "0000" b! "<f>:" := by decide
example : titleName b! "<f>:" = b! "f" := by decide
example : lineKind false b! "f():" = .remark := by decide
example : lineKind true b! "f(): 1" = .code (some b! "f()") [] b! "1" [] := by decide
example : lineKind false b! "; /a/b.c:12 (x)" = .source b! "/a/b.c" b! "12" true := by decide
example : lineKind false b! "/a:1:2" = .source b! "1" b! "2" false := by decide
example : lineKind false b! "\t..." = .code none [] b! "..." [] := by decide
example : lineKind false b! "Disassembly of section .text:" = .section b! ".text" := by decide +kernel
example : lineKind false b! "Disassembly of x" = .noSection b! "Disassembly of x" := by decide +kernel

end AsmParser
