import Verif.Spec.Compat
import Verif.Proofs.UsageOrder
import Verif.Proofs.SourceRead
import Verif.Proofs.TextExact

/-! Data in the compatibility mode. -/

namespace AsmParser

attribute [local irreducible] Re.search Re.fullMatch

theorem collapse_members (ls : List Str) {t : Str} (h : t ∈ collapse ls) : t ∈ ls := by
  have mem : ∀ (b : Bool) (ls : List Str), ∀ t ∈ collapseFrom b ls, t ∈ ls := by
    intro b ls
    induction ls generalizing b with
    | nil => exact fun t ht => ht
    | cons x ls ih =>
      intro t ht
      unfold collapseFrom at ht
      split at ht
      · split at ht
        · exact List.mem_cons_of_mem _ (ih _ t ht)
        · rename_i hx _
          rcases List.mem_cons.1 ht with rfl | ht
          · rw [hx]; exact List.mem_cons_self
          · exact List.mem_cons_of_mem _ (ih _ t ht)
      · rcases List.mem_cons.1 ht with rfl | ht
        · exact List.mem_cons_self
        · exact List.mem_cons_of_mem _ (ih _ t ht)
  exact mem true _ _ h

theorem outsideComments_sub (b : Bool) (ls : List Str) : ∀ l ∈ outsideComments b ls, l ∈ ls := by
  induction ls generalizing b with
  | nil => exact fun l hl => hl
  | cons x ls ih =>
    intro l hl
    unfold outsideComments at hl
    split at hl
    · exact List.mem_cons_of_mem _ (ih _ l hl)
    · rcases List.mem_cons.1 hl with rfl | hl
      · exact List.mem_cons_self
      · exact List.mem_cons_of_mem _ (ih _ l hl)

/-- `NoLooseData`, for the lines that are read. -/
def NoLooseLines (L : Locale) (f : Filter) (s : Str) : Prop :=
  f.compatmode = true → f.directives = true →
    ∀ t ∈ ((TParser.init f).readStream L s).lines.map TLine.text, ¬ StartsWithOneOf dataDirectives t

theorem NoLooseLines.held {L : Locale} {f : Filter} {s : Str} (h : NoLooseLines L f s) :
    (f.compatmode && f.directives) = false ∨ ∀ l ∈ heldLines L f s, l.isData = true → l.source.insideProc = true := by
  cases hc : f.compatmode with
  | false => exact .inl rfl
  | true =>
    cases hd : f.directives with
    | false => exact .inl rfl
    | true =>
      refine .inr fun l hl hdata => ?_
      obtain ⟨e, -, hi⟩ := textInv L f s
      rcases hi.lines l hl with h' | h'
      · have e := congrArg TLine.isData h'
        exact absurd (Eq.trans (b := l.isData) hdata.symm e) (by simp)
      · exact absurd ((isDataDefn_iff _).1 (h'.data hdata)) (h hc hd _ (List.mem_map_of_mem hl))

/-- Nothing is removed after reading. -/
theorem NoLooseLines.texts {L : Locale} {f : Filter} {s : Str} (h : NoLooseLines L f s) {p : TParser} (hp : TextResult L f s p)
    (hu : f.unusedLabels = false) : p.lines.map TLine.text = ((TParser.init f).readStream L s).lines.map TLine.text := by
  have e := congrArg (List.map TLine.text) (result_lines hp hu h.held)
  rw [List.map_map, List.map_map] at e
  refine Eq.trans ?_ (e.trans (List.map_congr_left fun l _ => ?_))
  · exact List.map_congr_left fun l _ => rfl
  · show (TParser.finishKept _ l.noUse).text = l.text
    have := congrArg TLine.text (finishKept_core ((TParser.init f).readStream L s) l.noUse)
    exact this

section
variable [Recognizers]

theorem NoLooseData.lines {f : Filter} {s : Str} (h : NoLooseData f s) (L : Locale) : NoLooseLines L f s :=
  fun a b t ht => h a b t (collapse_members _ (by rw [← (readTags L f s).2.1]; exact ht))

theorem NoLooseData.held {f : Filter} {s : Str} (h : NoLooseData f s) (L : Locale) :
    (f.compatmode && f.directives) = false ∨ ∀ l ∈ heldLines L f s, l.isData = true → l.source.insideProc = true :=
  (h.lines L).held

theorem NoLooseData.texts {f : Filter} {s : Str} (h : NoLooseData f s) {L : Locale} {p : TParser} (hp : TextResult L f s p)
    (hu : f.unusedLabels = false) : p.lines.map TLine.text = collapse (scan f s).shown := by
  rw [(h.lines L).texts hp hu, (readTags L f s).2.1]

end

end AsmParser
