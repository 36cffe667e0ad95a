/-
Lemmas for C96: the nesting of inline assembly.
-/
import Verif.Spec.InlineAsm
import Verif.Proofs.HeldText
import Verif.Proofs.Remarks
import Verif.Proofs.TextFacts
import Verif.Proofs.MoreFilters
import Verif.Props.TextUtils

namespace AsmParser

attribute [local irreducible] Re.search Re.fullMatch

theorem asmBegins_iff (l : Str) : startsWithWord [b! "#APP", b! "# Begin ASM"] l = true ↔ AsmBegins l := by
  rw [startsWithWord_two _ _ _ (by decide) (by decide) (by decide) (by decide)]
  constructor
  · rintro (⟨bs, r, h, e⟩ | ⟨bs, r, h, e⟩)
    · exact ⟨bs, r, h, .inl e⟩
    · exact ⟨bs, r, h, .inr e⟩
  · rintro ⟨bs, r, h, e | e⟩
    · exact .inl ⟨bs, r, h, e⟩
    · exact .inr ⟨bs, r, h, e⟩

theorem asmEnds_iff (l : Str) : startsWithWord [b! "#NO_APP", b! "# End ASM"] l = true ↔ AsmEnds l := by
  rw [startsWithWord_two _ _ _ (by decide) (by decide) (by decide) (by decide)]
  constructor
  · rintro (⟨bs, r, h, e⟩ | ⟨bs, r, h, e⟩)
    · exact ⟨bs, r, h, .inl e⟩
    · exact ⟨bs, r, h, .inr e⟩
  · rintro ⟨bs, r, h, e | e⟩
    · exact .inl ⟨bs, r, h, e⟩
    · exact .inr ⟨bs, r, h, e⟩

theorem startsWithWord_blanks (w : List Str) {bs : Str} (h : Blanks bs) (l : Str) : startsWithWord w (bs ++ l) = startsWithWord w l := by
  unfold startsWithWord
  rw [dropWhile_blanks h]

/-- One line changes the nesting. -/
def asmStep (n : Int) (l : Str) : Int :=
  if startsWithWord [b! "#APP", b! "# Begin ASM"] l then n + 1
  else if startsWithWord [b! "#NO_APP", b! "# End ASM"] l then n - 1
  else n

/-- The nesting after some lines. -/
def asmDepth (ls : List Str) : Int := ls.foldl asmStep 0

theorem asmDepth_append (ls : List Str) (l : Str) : asmDepth (ls ++ [l]) = asmStep (asmDepth ls) l := by
  unfold asmDepth
  rw [List.foldl_append]
  rfl

theorem asmStep_blank (n : Int) {l : Str} (h : Blanks l) : asmStep n l = n := by
  have e : ∀ w, [] ∉ w → startsWithWord w l = false := by
    intro w hw
    have := startsWithWord_blanks w h []
    rw [List.append_nil] at this
    rw [this]
    unfold startsWithWord
    rw [List.any_eq_false]
    intro x hx
    cases x with
    | nil => exact absurd hx hw
    | cons c x => simp
  unfold asmStep
  rw [e _ (by decide), e _ (by decide)]
  rfl

theorem asmStep_append (n : Int) {bs : Str} (h : Blanks bs) (l : Str) : asmStep n (bs ++ l) = asmStep n l := by
  unfold asmStep
  rw [startsWithWord_blanks _ h, startsWithWord_blanks _ h]

theorem append_eq_snoc {α : Type} {ls a b : List α} {l m : α} (h : ls ++ [l] = a ++ m :: b) :
    (b = [] ∧ m = l ∧ a = ls) ∨ ∃ b', b = b' ++ [l] ∧ ls = a ++ m :: b' := by
  rcases List.eq_nil_or_concat b with rfl | ⟨b', x, rfl⟩
  · left
    have := List.append_inj' h rfl
    exact ⟨rfl, by simpa using this.2.symm, this.1.symm⟩
  · right
    have h' : ls ++ [l] = (a ++ m :: b') ++ [x] := by simpa using h
    have := List.append_inj' h' rfl
    obtain ⟨e1, e2⟩ := this
    obtain rfl : l = x := by simpa using e2
    exact ⟨b', by simp, e1⟩

theorem AsmPaired.left {ls : List Str} {l : Str} (h : AsmPaired (ls ++ [l])) : AsmPaired ls := by
  rintro a m b rfl
  exact h a m (b ++ [l]) (by simp)

theorem insideAsm_append (ls : List Str) (l : Str) : InsideAsm (ls ++ [l]) ↔ AsmBegins l ∨ (InsideAsm ls ∧ ¬ AsmEnds l) := by
  constructor
  · rintro ⟨a, m, b, e, hm, hb⟩
    rcases append_eq_snoc e with ⟨rfl, rfl, rfl⟩ | ⟨b', rfl, rfl⟩
    · exact .inl hm
    · exact .inr ⟨⟨a, m, b', rfl, hm, fun x hx => hb x (by simp [hx])⟩, hb l (by simp)⟩
  · rintro (h | ⟨⟨a, m, b, rfl, hm, hb⟩, h⟩)
    · exact ⟨ls, l, [], rfl, h, by simp⟩
    · refine ⟨a, m, b ++ [l], by simp, hm, fun x hx => ?_⟩
      rcases List.mem_append.1 hx with hx | hx
      · exact hb x hx
      · obtain rfl : x = l := by simpa using hx
        exact h

theorem AsmPaired.depth : ∀ (n : Nat) (ls : List Str), ls.length = n → AsmPaired ls →
    (InsideAsm ls ∧ asmDepth ls = 1) ∨ (¬ InsideAsm ls ∧ asmDepth ls = 0) := by
  intro n
  induction n with
  | zero =>
    intro ls hl _
    obtain rfl := List.length_eq_zero_iff.1 hl
    refine .inr ⟨?_, rfl⟩
    rintro ⟨a, m, b, e, -⟩
    simp at e
  | succ n ih =>
    intro ls hl h
    rcases List.eq_nil_or_concat ls with rfl | ⟨ls, l, rfl⟩
    · simp at hl
    · rw [List.concat_eq_append] at *
      have hp := h ls l [] rfl
      have ih := ih ls (by simpa using hl) h.left
      rw [insideAsm_append, asmDepth_append]
      unfold asmStep
      by_cases hb : AsmBegins l
      · rw [if_pos ((asmBegins_iff l).2 hb)]
        rcases ih with ⟨h1, -⟩ | ⟨-, h2⟩
        · exact absurd h1 (hp.1 hb)
        · exact .inl ⟨.inl hb, by rw [h2]; rfl⟩
      · rw [if_neg fun hh => hb ((asmBegins_iff l).1 hh)]
        by_cases he : AsmEnds l
        · rw [if_pos ((asmEnds_iff l).2 he)]
          rcases ih with ⟨-, h2⟩ | ⟨h1, -⟩
          · refine .inr ⟨?_, by rw [h2]; rfl⟩
            rintro (hh | ⟨-, hh⟩)
            · exact hb hh
            · exact hh he
          · exact absurd (hp.2 he) h1
        · rw [if_neg fun hh => he ((asmEnds_iff l).1 hh)]
          rcases ih with ⟨h1, h2⟩ | ⟨h1, h2⟩
          · exact .inl ⟨.inr ⟨h1, he⟩, h2⟩
          · refine .inr ⟨?_, h2⟩
            rintro (hh | ⟨hh, -⟩)
            · exact hb hh
            · exact h1 hh

section

variable [Recognizers]

/-- The line `t` that is looked at is the line number `i` of `ls`. -/
structure SeenAt (f : Filter) (ls : List Str) (i : Nat) (t : Seen) : Prop where
  at_ : ∃ raw ws, ls[i]? = some raw ∧ Blanks ws ∧
    t.inline = decide (asmDepth (ls.take (i + 1)) > 0) ∧
    t.text = cleaned f (if asmDepth (ls.take (i + 1)) > 0 then fixLabelIndentation (ws ++ raw) else ws ++ raw)

omit [Recognizers] in
theorem SeenAt.lt {f : Filter} {ls : List Str} {i : Nat} {t : Seen} (h : SeenAt f ls i t) : i < ls.length := by
  obtain ⟨raw, ws, h, -⟩ := h.at_
  exact (List.getElem?_eq_some_iff.1 h).1

omit [Recognizers] in
theorem SeenAt.append {f : Filter} {ls : List Str} {i : Nat} {t : Seen} (h : SeenAt f ls i t) (x : List Str) : SeenAt f (ls ++ x) i t := by
  have hl := h.lt
  obtain ⟨raw, ws, h1, h2, h3⟩ := h.at_
  refine ⟨raw, ws, ?_, h2, ?_⟩
  · rw [List.getElem?_append_left hl]; exact h1
  · rw [List.take_append_of_le_length (by omega)]; exact h3

/-- What reading keeps. -/
structure AsmScan (f : Filter) (done : List Str) (sc : Scan) : Prop where
  inside : f.commentOnly = true → sc.inside = insideAfter false done
  carry : Blanks sc.carry
  nest : sc.nest = asmDepth (uncommented f done)
  idx : ∃ is : List (Seen × Nat), is.map (·.1) = sc.texts ∧ is.Pairwise (fun a b => a.2 < b.2) ∧
    ∀ z ∈ is, SeenAt f (uncommented f done) z.2 z.1

theorem asmScan_step (f : Filter) (done : List Str) (sc : Scan) (l : Str) (h : AsmScan f done sc) :
    AsmScan f (done ++ [l]) (Scan.line f sc l) := by
  obtain ⟨is, h1, h2, h3⟩ := h.idx
  have hcond : (f.commentOnly && (sc.inside || opensComment (sc.carry ++ l))) = (f.commentOnly && (insideAfter false done || opensComment l)) := by
    rw [opens_blanks h.carry]
    cases hc : f.commentOnly with
    | false => rfl
    | true => rw [h.inside hc]
  have hun := uncommented_append f done l
  unfold Scan.line
  simp only
  cases hK : (f.commentOnly && (insideAfter false done || opensComment l)) with
  | true =>
    rw [if_pos (hcond.trans hK)]
    rw [if_pos hK, List.append_nil] at hun
    have hin : (insideAfter false done || opensComment l) = true := by
      simp only [Bool.and_eq_true] at hK
      exact hK.2
    refine ⟨fun _ => ?_, fun c hc => (List.not_mem_nil hc).elim, by rw [hun]; exact h.nest, ⟨is, h1, h2, by rw [hun]; exact h3⟩⟩
    rw [insideAfter_append, if_pos hin]
    show (!occurs b! "*/" (sc.carry ++ l)) = _
    rw [occurs_blanks h.carry]
  | false =>
    rw [if_neg (by rw [hcond, hK]; decide)]
    rw [if_neg (by rw [hK]; decide)] at hun
    have hin : f.commentOnly = true → sc.inside = insideAfter false (done ++ [l]) := by
      intro hc
      rw [hc, Bool.true_and] at hK
      rw [insideAfter_append, if_neg (by rw [hK]; decide), h.inside hc]
      simp only [Bool.or_eq_false_iff] at hK
      exact hK.1
    split
    · rename_i hb
      have hbl := blanks_of_all hb
      refine ⟨hin, hbl, ?_, ⟨is, h1, h2, by rw [hun]; exact fun z hz => (h3 z hz).append _⟩⟩
      rw [hun, asmDepth_append, asmStep_blank _ fun c hc => hbl c (List.mem_append_right _ hc)]
      exact h.nest
    · have hn : (if startsWithWord [b! "#APP", b! "# Begin ASM"] (sc.carry ++ l) = true then sc.nest + 1
          else if startsWithWord [b! "#NO_APP", b! "# End ASM"] (sc.carry ++ l) = true then sc.nest - 1 else sc.nest) =
          asmDepth (uncommented f (done ++ [l])) := by
        rw [hun, asmDepth_append, ← asmStep_append _ h.carry, ← h.nest]
        rfl
      rw [hn]
      obtain ⟨e1, e2, e3, -⟩ := Scan.see_fields f { sc with nest := asmDepth (uncommented f (done ++ [l])), carry := [] } (sc.carry ++ l)
        (cleaned f (if asmDepth (uncommented f (done ++ [l])) > 0 then fixLabelIndentation (sc.carry ++ l) else sc.carry ++ l))
      refine ⟨fun hc => e1.trans (hin hc), by rw [e3]; exact fun c hc => (List.not_mem_nil hc).elim, e2, ?_⟩
      rcases Scan.see_texts f { sc with nest := asmDepth (uncommented f (done ++ [l])), carry := [] } (sc.carry ++ l)
        (cleaned f (if asmDepth (uncommented f (done ++ [l])) > 0 then fixLabelIndentation (sc.carry ++ l) else sc.carry ++ l)) with e | e
      · exact ⟨is, by rw [e]; exact h1, h2, by rw [hun]; exact fun z hz => (h3 z hz).append _⟩
      · refine ⟨is ++ [(_, (uncommented f done).length)], by rw [e, List.map_append, h1]; rfl, ?_, ?_⟩
        · rw [List.pairwise_append]
          refine ⟨h2, List.pairwise_singleton _ _, fun a ha b hb => ?_⟩
          obtain rfl := List.mem_singleton.1 hb
          exact (h3 a ha).lt
        · intro z hz
          rcases List.mem_append.1 hz with hz | hz
          · rw [hun]; exact (h3 z hz).append _
          · obtain rfl := List.mem_singleton.1 hz
            refine ⟨l, sc.carry, ?_, h.carry, ?_⟩
            · rw [hun, List.getElem?_append_right (Nat.le_refl _), Nat.sub_self]; rfl
            · have et : (uncommented f (done ++ [l])).take ((uncommented f done).length + 1) = uncommented f (done ++ [l]) := by
                rw [List.take_of_length_le (by rw [hun]; simp)]
              rw [et]
              exact ⟨rfl, rfl⟩

theorem asmScan_fold (f : Filter) : ∀ (lines done : List Str) (sc : Scan), AsmScan f done sc →
    AsmScan f (done ++ lines) (lines.foldl (Scan.line f) sc) := by
  intro lines
  induction lines with
  | nil => intro done sc h; rw [List.append_nil]; exact h
  | cons l lines ih =>
    intro done sc h
    have := ih (done ++ [l]) _ (asmScan_step f done sc l h)
    rw [List.append_assoc] at this
    exact this

theorem asmScan (f : Filter) (s : Str) : AsmScan f (inputLines s) (scan f s) := by
  have e : uncommented f [] = [] := by unfold uncommented; cases f.commentOnly <;> rfl
  have := asmScan_fold f (inputLines s) [] {} ⟨fun _ => rfl, fun c hc => (List.not_mem_nil hc).elim, by rw [e]; rfl,
    ⟨[], rfl, List.Pairwise.nil, fun z hz => (List.not_mem_nil hz).elim⟩⟩
  exact this

end

/-! ### Labels -/

theorem lone_label {bs raw name : Str} (hb : Blanks bs) (h : LoneLabel raw name) : fixLabelIndentation (bs ++ raw) = name ++ b! ":" := by
  obtain ⟨bs', hb', rfl, hne, hn⟩ := h
  have hB : Blanks (bs ++ bs') := fun c hc => (List.mem_append.1 hc).elim (hb c) (hb' c)
  have hw : ∀ c ∈ name ++ b! ":", ¬ Blank c ∧ ¬ CommentChar c ∧ isSpace c = false := by
    intro c hc
    rcases List.mem_append.1 hc with hc | hc
    · have key : ∀ c : Byte, Letter c ∨ Digit c ∨ c = c! '_' ∨ c = c! '.' → ¬ Blank c ∧ ¬ CommentChar c ∧ isSpace c = false := by
        intro c h
        have h' : (((97 ≤ c && c ≤ 122) || (65 ≤ c && c ≤ 90)) || ((48 ≤ c && c ≤ 57) || (c == 95 || c == 46))) = true := by
          simpa [Letter, Digit, or_assoc] using h
        have e : ∀ c : BitVec 8, (((97 ≤ UInt8.ofBitVec c && UInt8.ofBitVec c ≤ 122) || (65 ≤ UInt8.ofBitVec c && UInt8.ofBitVec c ≤ 90)) ||
            ((48 ≤ UInt8.ofBitVec c && UInt8.ofBitVec c ≤ 57) || (UInt8.ofBitVec c == 95 || UInt8.ofBitVec c == 46))) = true →
            (UInt8.ofBitVec c ≠ 32 ∧ UInt8.ofBitVec c ≠ 9) ∧ (UInt8.ofBitVec c ≠ 59 ∧ UInt8.ofBitVec c ≠ 35) ∧ isSpace (UInt8.ofBitVec c) = false := by
          decide +kernel
        obtain ⟨e1, e2, e3⟩ := e c.toBitVec h'
        exact ⟨fun hh => hh.elim e1.1 e1.2, fun hh => hh.elim e2.1 e2.2, e3⟩
      exact key c (hn c hc)
    · obtain rfl := List.mem_singleton.1 hc
      decide
  have e : bs ++ (bs' ++ name ++ b! ":") = (bs ++ bs') ++ (name ++ b! ":") := by simp
  have hnc : ∀ c ∈ (bs ++ bs') ++ (name ++ b! ":"), ¬ CommentChar c := by
    intro c hc
    rcases List.mem_append.1 hc with hc | hc
    · rcases hB c hc with rfl | rfl <;> decide
    · exact (hw c hc).2.1
  unfold fixLabelIndentation isProbablyLabel
  rw [e, (C27_no_comment_partial _ hnc).1 _ _ rfl hB fun c hc => (hw c hc).1]
  have : endsWith ((bs ++ bs') ++ (name ++ b! ":")) b! ":" = true := by
    rw [← List.append_assoc]
    unfold endsWith
    rw [List.isSuffixOf_iff_suffix]
    exact ⟨_, rfl⟩
  rw [if_pos this]
  unfold ltrim
  rw [List.dropWhile_append_of_pos (by intro c hc; rcases hB c hc with rfl | rfl <;> decide)]
  obtain ⟨c, w, rfl⟩ := List.exists_cons_of_ne_nil hne
  rw [List.cons_append, List.dropWhile_cons_of_neg (by rw [(hw c (by simp)).2.2]; decide)]

theorem no_label {line : Str} (h : c! ':' ∉ line) : fixLabelIndentation line = line := by
  unfold fixLabelIndentation
  rw [if_neg fun hh => h (probablyLabel_colon hh)]

end AsmParser
