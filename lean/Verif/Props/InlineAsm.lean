/-
C96: what counts as inline assembly in text mode.
-/
import Verif.Proofs.InlineAsm
import Verif.Props.Lines

namespace AsmParser

attribute [local irreducible] Re.search Re.fullMatch

section

variable [Recognizers]

/-- C96 (partial): let the markers of inline assembly in the input alternate, beginning with one that begins it.  Then each line of the
result that has a text is a line of the input, in the same order, such that
* it is marked as inline assembly iff among the lines up to it inline assembly has begun and not ended since;
* outside inline assembly its text is that of the input line, perhaps with blanks from earlier lines in front, up to `cleaned`;
* inside, the same holds for lines without a colon, and labels on a line of their own are moved to the left margin.
If the filter `comment_only` is set, block comments do not take part.
For other inputs this fails, see `C96_violation`. -/
theorem C96_inline_partial (L : Locale) (f : Filter) (s : Str) (p : TParser) (h : TextResult L f s p) (hp : AsmPaired (codeLines f s)) :
    ∃ zs : List (TLine × Nat), zs.map (·.1) = p.lines.filter (fun l => l.text ≠ []) ∧ zs.Pairwise (fun a b => a.2 < b.2) ∧
    ∀ z ∈ zs, ∃ raw ws, (codeLines f s)[z.2]? = some raw ∧ Blanks ws ∧
      (z.1.isInlineAsm = true ↔ InsideAsm ((codeLines f s).take (z.2 + 1))) ∧
      (z.1.isInlineAsm = false ∨ c! ':' ∉ raw → z.1.text = cleaned f (ws ++ raw)) ∧
      (z.1.isInlineAsm = true → ∀ name, LoneLabel raw name → z.1.text = cleaned f (name ++ b! ":")) := by
  obtain ⟨d, zs, -, h1, h2, h3, -⟩ := C67_lines L f s p h
  obtain ⟨is, k1, k2, k3⟩ := (asmScan f s).idx
  have hcode : uncommented f (inputLines s) = codeLines f s := rfl
  have hseen : ∀ (k : Nat) (t : Seen), (seen f s)[k]? = some t → ∃ i, is[k]? = some (t, i) := by
    intro k t hk
    rw [show seen f s = is.map (·.1) from k1.symm, List.getElem?_map] at hk
    cases hi : is[k]? with
    | none => rw [hi] at hk; cases hk
    | some z =>
      rw [hi] at hk
      obtain rfl : z.1 = t := by simpa using hk
      exact ⟨z.2, rfl⟩
  have hmono : ∀ (k k' : Nat) z z', is[k]? = some z → is[k']? = some z' → k < k' → z.2 < z'.2 := by
    intro k k' z z' hz hz' hk
    obtain ⟨a, rfl⟩ := List.getElem?_eq_some_iff.1 hz
    obtain ⟨b, rfl⟩ := List.getElem?_eq_some_iff.1 hz'
    exact List.pairwise_iff_getElem.1 k2 k k' a b hk
  let g : Nat → Nat := fun k => ((is[k]?).map (·.2)).getD 0
  have hg : ∀ z ∈ zs, ∃ t, (seen f s)[z.2]? = some t ∧ is[z.2]? = some (t, g z.2) := by
    intro z hz
    obtain ⟨t, e, -⟩ := h3 z hz
    obtain ⟨i, hi⟩ := hseen _ _ e
    refine ⟨t, e, ?_⟩
    show is[z.2]? = some (t, ((is[z.2]?).map (·.2)).getD 0)
    rw [hi]
    rfl
  refine ⟨zs.map fun z => (z.1, g z.2), by rw [List.map_map]; exact h1, ?_, ?_⟩
  · rw [List.pairwise_map]
    refine List.Pairwise.imp_of_mem ?_ h2
    intro a b ha hb hab
    obtain ⟨t, -, e⟩ := hg a ha
    obtain ⟨t', -, e'⟩ := hg b hb
    exact hmono _ _ _ _ e e' hab
  · intro y hy
    obtain ⟨z, hz, rfl⟩ := List.mem_map.1 hy
    obtain ⟨t, e1, e2⟩ := hg z hz
    obtain ⟨t', e3, -, hd⟩ := h3 z hz
    obtain rfl : t = t' := by rw [e1] at e3; exact Option.some.inj e3
    obtain ⟨raw, ws, q1, q2, q3, q4⟩ := (k3 _ (List.mem_of_getElem? e2)).at_
    rw [hcode] at q1 q3 q4
    have hpt : AsmPaired ((codeLines f s).take (g z.2 + 1)) := by
      intro a m b e
      exact hp a m (b ++ (codeLines f s).drop (g z.2 + 1)) (by
        rw [← List.cons_append, ← List.append_assoc, ← e, List.take_append_drop])
    have hdep := AsmPaired.depth _ _ rfl hpt
    simp only at q3 q4
    refine ⟨raw, ws, q1, q2, ?_, ?_, ?_⟩
    · rw [hd.inlineAsm, q3, decide_eq_true_iff]
      rcases hdep with ⟨a, b⟩ | ⟨a, b⟩
      · rw [b]; exact ⟨fun _ => a, fun _ => by decide⟩
      · rw [b]; exact ⟨fun hh => absurd hh (by decide), fun hh => absurd hh a⟩
    · intro hh
      rw [hd.text, q4]
      rcases hh with hh | hh
      · simp only [hd.inlineAsm, q3, decide_eq_false_iff_not] at hh
        rw [if_neg hh]
      · rw [no_label (line := ws ++ raw), ite_self]
        intro hc
        rcases List.mem_append.1 hc with hc | hc
        · exact absurd (q2 _ hc) (by decide)
        · exact hh hc
    · intro hh name hn
      simp only [hd.inlineAsm, q3, decide_eq_true_eq] at hh
      rw [hd.text, q4, if_pos hh, lone_label q2 hn]

end

/-! ### Samples -/

/-- A test whether the markers alternate. -/
def asmAlternate : Bool → List Str → Bool
  | _, [] => true
  | b, l :: ls =>
    if startsWithWord [b! "#APP", b! "# Begin ASM"] l then !b && !startsWithWord [b! "#NO_APP", b! "# End ASM"] l && asmAlternate true ls
    else if startsWithWord [b! "#NO_APP", b! "# End ASM"] l then b && asmAlternate false ls
    else asmAlternate b ls

theorem asmAlternate_sound : ∀ (ls done : List Str) (b : Bool), (InsideAsm done ↔ b = true) → AsmPaired done → asmAlternate b ls = true →
    AsmPaired (done ++ ls) := by
  intro ls
  induction ls with
  | nil => intro done b _ h _; rw [List.append_nil]; exact h
  | cons l ls ih =>
    intro done b hb h ht
    have snoc : (AsmBegins l → ¬ InsideAsm done) → (AsmEnds l → InsideAsm done) → AsmPaired (done ++ [l]) := by
      intro h1 h2 a m c e
      rcases append_eq_snoc e with ⟨rfl, rfl, rfl⟩ | ⟨c', rfl, e'⟩
      · exact ⟨h1, h2⟩
      · exact h a m c' e'
    have e : done ++ l :: ls = (done ++ [l]) ++ ls := by simp
    rw [e]
    unfold asmAlternate at ht
    by_cases hB : AsmBegins l
    · rw [if_pos ((asmBegins_iff l).2 hB)] at ht
      simp only [Bool.and_eq_true, Bool.not_eq_true', ] at ht
      have hE : ¬ AsmEnds l := fun hE => by rw [(asmEnds_iff l).2 hE] at ht; exact absurd ht.1.2 (by decide)
      refine ih _ true ?_ (snoc (fun _ hi => ?_) fun hh => absurd hh hE) ht.2
      · rw [insideAsm_append]; exact ⟨fun _ => rfl, fun _ => .inl hB⟩
      · rw [hb.1 hi] at ht; exact absurd ht.1.1 (by decide)
    · rw [if_neg fun hh => hB ((asmBegins_iff l).1 hh)] at ht
      by_cases hE : AsmEnds l
      · rw [if_pos ((asmEnds_iff l).2 hE)] at ht
        simp only [Bool.and_eq_true] at ht
        refine ih _ false ?_ (snoc (fun hh => absurd hh hB) fun _ => hb.2 ht.1) ht.2
        rw [insideAsm_append]
        constructor
        · rintro (hh | ⟨-, hh⟩)
          · exact absurd hh hB
          · exact absurd hE hh
        · intro hh; cases hh
      · rw [if_neg fun hh => hE ((asmEnds_iff l).1 hh)] at ht
        refine ih _ b ?_ (snoc (fun hh => absurd hh hB) fun hh => absurd hh hE) ht
        rw [insideAsm_append, ← hb]
        constructor
        · rintro (hh | ⟨hh, -⟩)
          · exact absurd hh hB
          · exact hh
        · exact fun hh => .inr ⟨hh, hE⟩

theorem paired_of_test {ls : List Str} (h : asmAlternate false ls = true) : AsmPaired ls := by
  refine asmAlternate_sound ls [] false ⟨?_, fun hh => by cases hh⟩ ?_ h
  · rintro ⟨a, m, b, e, -⟩
    simp at e
  · intro a m b e
    simp at e

/-- A function with inline assembly in which a label is indented. -/
def asmSample : List Str :=
  [b! "\t.globl\tf", b! "f:", b! "#APP", b! "\tagain:", b! "\tnop", b! "#NO_APP", b! "\tret"]

/-- The hypotheses of `C96_inline_partial` are met, the label is moved to the margin and three lines count as inline assembly. -/
example : AsmPaired (codeLines {} (unlines asmSample)) ∧ ∃ p, TextResult Locale.utf8 {} (unlines asmSample) p ∧
    p.outputText = unlines [b! "        .globl  f", b! "f:", b! "#APP", b! "again:", b! "        nop", b! "#NO_APP", b! "        ret"] ∧
    p.lines.map (·.isInlineAsm) = [false, false, true, true, true, false, false] :=
  ⟨paired_of_test (by decide +kernel), textRun_exists (by decide +kernel)⟩

/-- The claim of C96 without its hypothesis fails.  Compilers for some targets write `#NO_APP` at the beginning of each file.  Then nothing
counts as inline assembly up to the second marker of a beginning: the same function as in `asmSample` is shown with the label indented and
no line is marked.  The other way round, after two markers that begin inline assembly and one that ends it, ordinary code still counts as
inline assembly. -/
theorem C96_violation :
    (∃ p, TextResult Locale.utf8 {} (unlines (b! "#NO_APP" :: asmSample)) p ∧
      p.outputText = unlines [b! "#NO_APP", b! "        .globl  f", b! "f:", b! "#APP", b! "        again:", b! "        nop", b! "#NO_APP",
        b! "        ret"] ∧ p.lines.all (fun l => !l.isInlineAsm) = true) ∧
    (∃ p, TextResult Locale.utf8 {} (unlines [b! "f:", b! "#APP", b! "#APP", b! "\tnop", b! "#NO_APP", b! "\tret"]) p ∧
      p.lines.map (·.isInlineAsm) = [false, true, true, true, true, true]) := by
  refine ⟨?_, ?_⟩ <;> exact textRun_exists (by decide +kernel)

end AsmParser
