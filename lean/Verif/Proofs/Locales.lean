/-
The locale only matters for characters that are not ASCII.
-/
import Verif.Proofs.LineInfo
import Verif.Proofs.ObjChars
import Verif.Proofs.UsedLabels
import Verif.Spec.TextMode

namespace AsmParser
open Re Regexes

/-! ### Text mode -/

theorem usedLabelsLoop_locale {L L' : Locale} (hL : L.Ascii) (hL' : L'.Ascii) (s : Str) (k : Nat) (fuel pos : Nat) (hp : pos ≤ s.length) :
    usedLabelsLoop L s k (usedLabel.rangeAux s fuel pos) pos = usedLabelsLoop L' s k (usedLabel.rangeAux s fuel pos) pos := by
  induction fuel generalizing pos with
  | zero => simp [Re.rangeAux, usedLabelsLoop]
  | succ fuel ih =>
    unfold Re.rangeAux
    cases hm : usedLabel.searchFrom pos (s.drop pos) with
    | none => simp [usedLabelsLoop]
    | some m =>
      have hra := searchFrom_refAt hp hm
      obtain ⟨loc, f1, f2, f3, f4, f5, f6⟩ := find_refAt hra
      obtain ⟨c, t, hy, hc, ht⟩ := hra.name
      have ha : asciiStr (m.get 2) := by
        rw [hy]
        intro d hd
        rcases List.mem_cons.1 hd with rfl | hd
        · exact refStart_ascii (.inl hc)
        · exact refStart_ascii (.inr (ht d hd))
      dsimp only
      rw [usedLabelsLoop, usedLabelsLoop]
      simp only [f1, Option.getD_some, ustrlen_ascii hL ha, ustrlen_ascii hL' ha, f2]
      rw [ih m.stop f4]

theorem getUsedLabels_locale {L L' : Locale} (hL : L.Ascii) (hL' : L'.Ascii) : getUsedLabelsInLine L = getUsedLabelsInLine L' := by
  funext line
  unfold getUsedLabelsInLine
  dsimp only
  split
  · rfl
  · exact usedLabelsLoop_locale hL hL' _ _ _ 0 (by omega)

theorem readStream_locale {L L' : Locale} (hL : L.Ascii) (hL' : L'.Ascii) (p : TParser) (s : Str) : p.readStream L s = p.readStream L' s := by
  have e0 := getUsedLabels_locale hL hL'
  have e1 : TParser.extractUsedLabelsFromOpcodeLine L = TParser.extractUsedLabelsFromOpcodeLine L' := by
    funext p ln; unfold TParser.extractUsedLabelsFromOpcodeLine; rw [e0]
  have e2 : TParser.extractUsedLabelsFromDataLine L = TParser.extractUsedLabelsFromDataLine L' := by
    funext p ln; unfold TParser.extractUsedLabelsFromDataLine; rw [e0]
  have e3 : TParser.eolFinish L = TParser.eolFinish L' := by funext p ln; unfold TParser.eolFinish; rw [e1, e2]
  have e4 : TParser.eolDirective L = TParser.eolDirective L' := by funext p ln b; unfold TParser.eolDirective; rw [e3]
  have e5 : TParser.eolLabel L = TParser.eolLabel L' := by funext p ln b; unfold TParser.eolLabel; rw [e4]
  have e6 : TParser.eolComment L = TParser.eolComment L' := by funext p ln r b; unfold TParser.eolComment; rw [e5]
  have e7 : TParser.eolLibrary L = TParser.eolLibrary L' := by funext p ln r b; unfold TParser.eolLibrary; rw [e6]
  have e8 : TParser.eolSource L = TParser.eolSource L' := by funext p ln r; unfold TParser.eolSource; rw [e7]
  have e9 : TParser.eolBody L = TParser.eolBody L' := by funext p i; unfold TParser.eolBody; rw [e8]
  have e10 : TParser.eol L = TParser.eol L' := by funext p; unfold TParser.eol; rw [e9]
  have e11 : TParser.feed L = TParser.feed L' := by funext p c; unfold TParser.feed; rw [e10]
  unfold TParser.readStream
  rw [e10, e11]

theorem fromStream_locale {L L' : Locale} (hL : L.Ascii) (hL' : L'.Ascii) : TParser.fromStream L = TParser.fromStream L' := by
  funext o n p s v
  unfold TParser.fromStream
  rw [readStream_locale hL hL']

/-! ### Binary mode -/

theorem step_locale {L L' : Locale} (hL : L.Ascii) (hL' : L'.Ascii) {s : OState} (ha : asciiStr s.text) (f : Filter) (c : Byte) :
    s.step L f c = s.step L' f c := by
  unfold OState.step OState.stepText OState.labelref
  simp only [ustrlen_ascii hL ha, ustrlen_ascii hL' ha]

theorem objParse_locale {L L' : Locale} (hL : L.Ascii) (hL' : L'.Ascii) (f : Filter) : ∀ (n : Nat) (s : Str), s.length = n →
    (∀ c ∈ s, 0 < c ∧ c < 128) → objParse L f s = objParse L' f s := by
  intro n
  induction n with
  | zero => intro s h _; rw [List.length_eq_zero_iff.1 h]; rfl
  | succ n ih =>
    intro s h hs
    rcases List.eq_nil_or_concat s with rfl | ⟨s, c, rfl⟩
    · simp at h
    · rw [List.concat_eq_append] at hs ⊢
      have hs' : ∀ c ∈ s, 0 < c ∧ c < 128 := fun d hd => hs d (by simp [hd])
      have ih := ih s (by simpa using h) hs'
      have ht := (chars_parse' (Q := fun c => 0 < c ∧ c < 128) L f s (fun c hc _ _ => hs' c hc) (by decide)).1.text
      rw [objParse_append, objParse_append, ← ih]
      simp only [List.foldl_cons, List.foldl_nil]
      unfold OParser.feed
      rw [step_locale hL hL' (by exact ht)]

/-- The line without its references. -/
def unlinked (l : AsmLine) : AsmLine := { l with labels := [] }

theorem locale_shown {L L' : Locale} {drop : Str → Bool} (ls : List Str) : ∀ {c c' : Carry}, { c with opened := none } = { c' with opened := none } →
    SameShown unlinked (happenings (theReading L) drop c ls) (happenings (theReading L') drop c' ls) := by
  induction ls with
  | nil => intro c c' _; exact .nil
  | cons l ls ih =>
    intro c c' hc
    injection hc with h1 h2 h3
    rw [happenings, happenings, ← h3]
    generalize lineKind c.ign (l.filter (· != 13)) = k
    refine .cons ?_ (ih ?_)
    · cases k with
      | noSection t => simp only [Carry.shown, ← h3, h2]
      | header a t => simp only [Carry.shown, ← h3, h1, h2]; split <;> rfl
      | code a bs f r => simp only [Carry.shown, ← h3, h1, h2]; split <;> rfl
      | _ => rfl
    · obtain ⟨s, src, i, o⟩ := c
      obtain ⟨s', src', i', o'⟩ := c'
      dsimp only at h1 h2 h3
      subst h1 h2 h3
      cases k with
      | header a t => simp only [Carry.next]; split <;> rfl
      | _ => rfl

end AsmParser
