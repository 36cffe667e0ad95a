/-
Helper lemmas: lines of a listing that have no effect.
-/
import Verif.Spec.Interleaved
import Verif.Proofs.LineInfo

namespace AsmParser

/-- Lines without effect. -/
theorem leavingOut_decode {R : Reading} {drop : Str → Bool} {lib : Bool} {P : Str → Prop} {J : Carry → Prop} {Q : Str → Prop} {ls ls' : List Str} (h : LeavingOut P ls ls')
    (hQ : ∀ l ∈ ls, Q l)
    (hJ : ∀ c l, J c → Q l → J (c.next R drop (lineKind c.ign (l.filter (· != 13)))))
    (hP : ∀ c l, J c → P l → Q l → c.next R drop (lineKind c.ign (l.filter (· != 13))) = c ∧
      c.shown R drop (lineKind c.ign (l.filter (· != 13))) = none ∧ (lineKind c.ign (l.filter (· != 13))).begins = false) :
    ∀ (c : Carry) (b : Pages), J c → decodeLines R drop lib c b ls = decodeLines R drop lib c b ls' := by
  induction h with
  | nil => intro c b _; rfl
  | @same l ls ls' _ ih =>
    intro c b hc
    rw [decodeLines, decodeLines]
    exact ih (fun l hl => hQ l (List.mem_cons_of_mem _ hl)) _ _ (hJ c l hc (hQ l (by simp)))
  | @out l ls ls' hl _ ih =>
    intro c b hc
    obtain ⟨h1, h2, h3⟩ := hP c l hc hl (hQ l (by simp))
    rw [decodeLines]
    rw [h1, h2, h3, show b.next lib false none = b by unfold Pages.next; split <;> rfl]
    exact ih (fun l hl => hQ l (List.mem_cons_of_mem _ hl)) c b hc

theorem LeavingOut.mem {P : Str → Prop} {ls ls' : List Str} (h : LeavingOut P ls ls') : ∀ l ∈ ls', l ∈ ls := by
  induction h with
  | nil => simp
  | same _ ih =>
    intro l hl
    simp only [List.mem_cons] at hl ⊢
    exact hl.imp_right (ih l)
  | out _ _ ih => intro l hl; exact List.mem_cons_of_mem _ (ih l hl)

theorem emptyLine_kind {l : Str} (h : EmptyLine l) (ign : Bool) : lineKind ign (l.filter (· != 13)) = .code none [] [] [] := by
  have e : withoutMargin (l.filter (· != 13)) = [] := by
    have := marginOnly_drop (m := l.filter (· != 13)) (fun c hc => by
      rw [List.mem_filter] at hc
      rcases h c hc.1 with rfl | rfl | rfl | rfl
      · exact .inl rfl
      · exact .inr (.inl rfl)
      · exact .inr (.inr rfl)
      · exact absurd hc.2 (by decide)) []
    rw [List.append_nil] at this
    rw [this]
    rfl
  unfold lineKind leadWord afterWord
  rw [e]
  rfl

theorem word_parts {m w r : Str} {d : Byte} (hm : MarginOnly m) (hw : OneWord w) (hx : ∃ c ∈ w, c ≠ c! ';') (hd : inLeadWord d = false) :
    leadWord (m ++ w ++ d :: r) = w.filter (· != c! ';') ∧ afterWord (m ++ w ++ d :: r) = d :: r := by
  have hin : ∀ c ∈ w, inLeadWord c = true := by
    intro c hc
    obtain ⟨h1, h2, h3, h4⟩ := hw c hc
    simp only [inLeadWord, isWhitespace, Bool.and_eq_true, Bool.not_eq_true', Bool.or_eq_false_iff, beq_eq_false_iff_ne, bne_iff_ne]
    exact ⟨⟨⟨h1, h2⟩, h3⟩, h4⟩
  unfold leadWord afterWord
  rw [List.append_assoc, marginOnly_drop hm]
  clear hw
  induction w with
  | nil => simp at hx
  | cons c w ih =>
    have hc := hin c (by simp)
    have hcw : isWhitespace c = false := by
      simp only [inLeadWord, Bool.and_eq_true, Bool.not_eq_true'] at hc; exact hc.1.1
    by_cases hs : c = c! ';'
    · subst hs
      have e : withoutMargin (c! ';' :: w ++ d :: r) = withoutMargin (w ++ d :: r) := by
        unfold withoutMargin
        rw [List.cons_append, List.dropWhile_cons_of_pos (by decide)]
      rw [e]
      have hx' : ∃ c ∈ w, c ≠ c! ';' := by
        obtain ⟨x, h1, h2⟩ := hx
        rcases List.mem_cons.1 h1 with rfl | h1
        · exact absurd rfl h2
        · exact ⟨x, h1, h2⟩
      obtain ⟨h1, h2⟩ := ih hx' fun c hc => hin c (by simp [hc])
      exact ⟨by rw [h1]; simp, h2⟩
    · have e : withoutMargin (c :: w ++ d :: r) = c :: w ++ d :: r := by
        unfold withoutMargin
        rw [List.cons_append, List.dropWhile_cons_of_neg (by simp [hcw, hs])]
      rw [e]
      constructor
      · rw [List.takeWhile_append_of_pos hin, List.takeWhile_cons_of_neg (by simp [hd]), List.append_nil]
      · rw [List.dropWhile_append_of_pos hin, List.dropWhile_cons_of_neg (by simp [hd])]

theorem sourceText_kind {l : Str} (h : SourceText l) : lineKind false l = .remark := by
  obtain ⟨hm, hw, ⟨c, hc, hc1, hc2⟩, hD, hd⟩ := h
  rename_i m w r d
  obtain ⟨h1, h2⟩ := word_parts (r := r) (d := d) hm hw ⟨c, hc, hc2⟩ (by rcases hd with rfl | rfl | rfl <;> decide)
  unfold lineKind
  rw [h1, h2]
  have hmem : c ∈ w.filter (· != c! ';') := by simp [hc, hc2]
  have hne : w.filter (· != c! ';') ≠ [] := by intro e; rw [e] at hmem; cases hmem
  have hnh : (w.filter (· != c! ';')).all isHex = false := by
    rw [List.all_eq_false]
    exact ⟨c, hmem, by rw [← hexDigit_iff]; exact hc1⟩
  simp only [hnh, hne, hD, Bool.or_false, Bool.false_eq_true, ↓reduceIte]
  rcases hd with rfl | rfl | rfl <;> rfl

theorem header_title {l a t : Str} (h : lineKind false l = .header a t) : ∃ m w b r, MarginOnly m ∧ OneWord w ∧
    (∀ c ∈ w, HexDigit c ∨ c = c! ';') ∧ (∃ c ∈ w, HexDigit c) ∧ (b = c! ' ' ∨ b = 9) ∧ l = m ++ w ++ b :: r ∧ t = dropBlanks r := by
  unfold lineKind at h
  cases ha : afterWord l with
  | nil => rw [ha] at h; cases h
  | cons d r =>
    rw [ha] at h
    dsimp only at h
    split at h
    · unfold sourceLine at h
      split at h
      · cases h
      · rename_i r' _
        obtain ⟨_, _, _, e⟩ := readLineNo_source r' (List.takeWhile (fun x => decide (x ≠ c! ':')) (leadWord l ++ d :: r)) []
        rw [e] at h
        cases h
    · rename_i h1
      split at h
      · split at h
        · cases h
        · split at h <;> cases h
      · rename_i h2
        split at h
        · unfold sectionLine at h
          split at h <;> cases h
        · split at h
          · rename_i h3
            cases h
            have e1 : l = l.takeWhile (fun c => isWhitespace c || c == c! ';') ++ ((withoutMargin l).takeWhile inLeadWord ++ d :: r) := by
              rw [← ha]
              unfold afterWord
              rw [List.takeWhile_append_dropWhile]
              exact (List.takeWhile_append_dropWhile (p := fun c => isWhitespace c || c == c! ';') (l := l)).symm
            have hd : inLeadWord d = false := by
              have := List.head?_dropWhile_not inLeadWord (withoutMargin l)
              unfold afterWord at ha
              rw [ha] at this
              simpa using this
            have hb : d = c! ' ' ∨ d = 9 := by
              simp only [inLeadWord, Bool.and_eq_false_iff, Bool.not_eq_false', bne_eq_false_iff_eq] at hd
              rcases hd with (hd | hd) | hd
              · simp only [isWhitespace, Bool.or_eq_true, beq_iff_eq] at hd
                exact hd
              · exact absurd hd h2
              · exact absurd hd h1
            have hex : ∀ c ∈ (withoutMargin l).takeWhile inLeadWord, HexDigit c ∨ c = c! ';' := by
              intro c hc
              by_cases hs : c = c! ';'
              · exact .inr hs
              · left
                rw [Bool.false_or, List.all_eq_true] at h3
                rw [hexDigit_iff]
                exact h3 c (List.mem_filter.2 ⟨hc, by simpa using hs⟩)
            refine ⟨_, _, d, r, ?_, ?_, hex, ?_, hb, by rw [List.append_assoc]; exact e1, rfl⟩
            · intro c hc
              have := takeWhile_forall _ _ _ hc
              simp only [isWhitespace, Bool.or_eq_true, beq_iff_eq] at this
              rcases this with (h | h) | h
              · exact .inl h
              · exact .inr (.inl h)
              · exact .inr (.inr h)
            · intro c hc
              have := takeWhile_forall _ _ _ hc
              simp only [inLeadWord, isWhitespace, Bool.and_eq_true, Bool.not_eq_true', Bool.or_eq_false_iff, beq_eq_false_iff_ne, bne_iff_ne] at this
              exact ⟨this.1.1.1, this.1.1.2, this.1.2, this.2⟩
            · have hm := List.head?_dropWhile_not (fun c => isWhitespace c || c == c! ';') l
              rw [show l.dropWhile (fun c => isWhitespace c || c == c! ';') = withoutMargin l from rfl] at hm
              cases hw : withoutMargin l with
              | nil => unfold afterWord at ha; rw [hw] at ha; cases ha
              | cons x xs =>
                rw [hw] at hm hex
                simp only [List.head?_cons, Bool.or_eq_false_iff, beq_eq_false_iff_ne] at hm
                have hx : inLeadWord x = true := by
                  cases hx : inLeadWord x with
                  | true => rfl
                  | false =>
                    unfold afterWord at ha
                    rw [hw, List.dropWhile_cons_of_neg (by simp [hx])] at ha
                    cases ha
                    rcases hb with rfl | rfl <;> exact absurd hm.1 (by decide)
                rw [List.takeWhile_cons_of_pos hx] at hex ⊢
                exact ⟨x, by simp, (hex x (by simp)).resolve_right hm.2⟩
          · cases h

theorem leftOutTitle_kind {plt : Bool} {l : Str} (h : LeftOutTitle plt l) : ∃ a t, lineKind false l = .header a t ∧ IgnoredName plt (titleName t) := by
  obtain ⟨hm, hw, hx, ⟨c, hc, hc'⟩, hb, hi⟩ := h
  rename_i m a t b
  obtain ⟨h1, h2⟩ := word_parts (r := t) (d := b) hm hw ⟨c, hc, by rintro rfl; exact absurd hc' (by unfold HexDigit; decide)⟩
    (by rcases hb with rfl | rfl <;> decide)
  have hall : (a.filter (· != c! ';')).all isHex = true := by
    rw [List.all_eq_true]
    intro x hx'
    rw [List.mem_filter] at hx'
    rw [← hexDigit_iff]
    exact (hx x hx'.1).resolve_right (by simpa using hx'.2)
  have hne : a.filter (· != c! ';') ≠ b! "Disassembly" := by
    intro e
    rw [e] at hall
    exact absurd hall (by decide)
  refine ⟨a.filter (· != c! ';'), dropBlanks t, ?_, hi⟩
  unfold lineKind
  rw [h1, h2]
  simp only [hall, Bool.or_true, ↓reduceIte, hne]
  rcases hb with rfl | rfl <;> rfl

end AsmParser
