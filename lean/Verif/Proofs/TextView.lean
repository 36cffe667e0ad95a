/-
Helper lemmas: from the lines that are read to the lines that are output.
-/
import Verif.Proofs.TextExact

namespace AsmParser

attribute [local irreducible] Re.search Re.fullMatch

theorem TextResult.outcome {L : Locale} {f : Filter} {s : Str} {p : TParser} (h : TextResult L f s p) : Outcome L f s p := by
  obtain ⟨o, n, v, v', h⟩ := h
  exact AsmParser.outcome h

theorem core_text {a b : TLine} (h : a.core = b.core) : a.text = b.text := by
  have := congrArg TLine.text h; exact this
theorem core_isLabel {a b : TLine} (h : a.core = b.core) : a.isLabel = b.isLabel := by
  have := congrArg TLine.isLabel h; exact this
theorem core_label {a b : TLine} (h : a.core = b.core) : a.label = b.label := by
  have := congrArg TLine.label h; exact this
theorem core_isData {a b : TLine} (h : a.core = b.core) : a.isData = b.isData := by
  have := congrArg TLine.isData h; exact this

theorem map_core {α : Type} {a b : List TLine} (h : a.map TLine.core = b.map TLine.core) (g : TLine → α)
    (hg : ∀ l, g l = g l.core) : a.map g = b.map g := by
  have e : ∀ l : List TLine, l.map g = (l.map TLine.core).map g := by
    intro l; rw [List.map_map]; exact List.map_congr_left fun x _ => hg x
  rw [e a, e b, h]

theorem sublist_core {α : Type} {a b : List TLine} (h : (a.map TLine.core).Sublist (b.map TLine.core)) (g : TLine → α)
    (hg : ∀ l, g l = g l.core) : (a.map g).Sublist (b.map g) := by
  have e : ∀ l : List TLine, l.map g = (l.map TLine.core).map g := by
    intro l; rw [List.map_map]; exact List.map_congr_left fun x _ => hg x
  rw [e a, e b]
  exact h.map _

theorem outputText_unlines (p : TParser) : p.outputText = unlines (p.lines.map TLine.text) := by
  unfold TParser.outputText unlines
  rw [List.flatMap_map]

theorem plainLine {s : Str} (hb : ∀ l ∈ inputLines s, Blanks l → l = []) (ha : NoInlineAsm s) :
    ∀ l ∈ inputLines s, PlainLine l := fun l hl => ⟨hb l hl, fun bs r h => ha l hl bs r h⟩

theorem inputLinesFrom_append (cur l s : Str) (hl : 10 ∉ l) : inputLinesFrom cur (l ++ s) = inputLinesFrom (cur ++ l) s := by
  induction l generalizing cur with
  | nil => simp
  | cons c l ih =>
    rw [List.mem_cons, not_or] at hl
    rw [List.cons_append]
    unfold inputLinesFrom
    rw [if_neg (Ne.symm hl.1), ih _ hl.2, List.append_assoc]
    cases s <;> rfl

theorem inputLines_unlines (ls : List Str) (h : ∀ l ∈ ls, 10 ∉ l) : inputLines (unlines ls) = ls := by
  induction ls with
  | nil => rfl
  | cons l ls ih =>
    have e : unlines (l :: ls) = l ++ (10 :: unlines ls) := by simp [unlines]
    unfold inputLines at ih ⊢
    rw [e, inputLinesFrom_append _ _ _ (h l (by simp)), inputLinesFrom, if_pos rfl, List.nil_append,
      ih fun x hx => h x (List.mem_cons_of_mem _ hx)]

theorem redetermineLabels_spec (k : Nat) (ls : List TLine) :
    (∀ name n, (name, n) ∈ redetermineLabels k ls ↔ k ≤ n ∧ ∃ l, ls[n - k]? = some l ∧ l.isLabel = true ∧ l.label = name) ∧
    ((redetermineLabels k ls).map (·.2)).Pairwise (· < ·) := by
  induction ls generalizing k with
  | nil => exact ⟨fun name n => by simp [redetermineLabels], by simp [redetermineLabels]⟩
  | cons a ls ih =>
    obtain ⟨h1, h2⟩ := ih (k + 1)
    have hshift : ∀ n, k + 1 ≤ n → (a :: ls)[n - k]? = ls[n - (k + 1)]? := by
      intro n hn
      rw [show n - k = (n - (k + 1)) + 1 by omega, List.getElem?_cons_succ]
    unfold redetermineLabels
    constructor
    · intro name n
      split
      · rename_i ha
        rw [List.mem_cons, h1, Prod.mk.injEq]
        constructor
        · rintro (⟨rfl, rfl⟩ | ⟨h3, l, h4, h5⟩)
          · exact ⟨Nat.le_refl _, a, by simp, ha, rfl⟩
          · exact ⟨by omega, l, by rw [hshift n h3]; exact h4, h5⟩
        · rintro ⟨h3, l, h4, h5, h6⟩
          by_cases hk : n = k
          · subst hk
            rw [Nat.sub_self] at h4
            simp only [List.getElem?_cons_zero, Option.some.injEq] at h4
            subst h4
            exact .inl ⟨h6.symm, rfl⟩
          · right
            rw [hshift n (by omega)] at h4
            exact ⟨by omega, l, h4, h5, h6⟩
      · rename_i ha
        rw [h1]
        constructor
        · rintro ⟨h3, l, h4, h5⟩
          exact ⟨by omega, l, by rw [hshift n h3]; exact h4, h5⟩
        · rintro ⟨h3, l, h4, h5, h6⟩
          by_cases hk : n = k
          · subst hk
            rw [Nat.sub_self] at h4
            simp only [List.getElem?_cons_zero, Option.some.injEq] at h4
            subst h4
            exact absurd h5 ha
          · rw [hshift n (by omega)] at h4
            exact ⟨by omega, l, h4, h5, h6⟩
    · split
      · rw [List.map_cons, List.pairwise_cons]
        refine ⟨fun n hn => ?_, h2⟩
        obtain ⟨⟨name, m⟩, hm, rfl⟩ := List.mem_map.1 hn
        have := ((h1 name m).1 hm).1
        show k < m
        omega
      · exact h2

/-- The facts about an output line. -/
theorem output_line {L : Locale} {f : Filter} {s : Str} {p : TParser} (h : TextResult L f s p) {l : TLine} (hl : l ∈ p.lines) :
    ∃ l0 ∈ ((TParser.init f).readStream L s).lines, l.core = l0.core ∧
      LineOk L f (inputLines s) (HasCuda ((TParser.init f).readStream L s).lines) l0 := by
  obtain ⟨l0, h1, h2, -⟩ := h.outcome.mem hl
  exact ⟨l0, h1, h2, read_line L f s h1⟩

theorem not_defines_nil (n : Str) : ¬ DefinesOrAssigns [] n := by
  intro h
  obtain ⟨⟨a, b, e⟩, h2⟩ := definesOrAssigns_contains h
  have := congrArg List.length e
  simp only [List.length_nil, List.length_append] at this
  exact h2 (List.length_eq_zero_iff.1 (by omega))

/-- Which lines are label lines: those that define or assign a label, except source directives. -/
theorem output_label {L : Locale} {f : Filter} {s : Str} {p : TParser} (h : TextResult L f s p) {l : TLine} (hl : l ∈ p.lines) :
    (l.isLabel = true → DefinesOrAssigns l.text l.label) ∧
    (l.isLabel = false → SourceDirective l.text ∨ ∀ n, ¬ DefinesOrAssigns l.text n) := by
  obtain ⟨l0, -, h2, h3⟩ := output_line h hl
  rw [core_text h2, core_isLabel h2, core_label h2]
  rcases h3 with h3 | h3
  · have e1 : l0.text = [] := by have := congrArg TLine.text h3; exact this
    have e2 : l0.isLabel = false := by have := congrArg TLine.isLabel h3; exact this
    rw [e1, e2]
    exact ⟨fun h => absurd h (by simp), fun _ => .inr not_defines_nil⟩
  · rcases h3.label with ⟨a1, c, a2⟩ | ⟨a1, -, -, a2⟩
    · exact ⟨fun _ => getLabelFromLine_defines a2, fun h => absurd (a1.symm.trans h) (by simp)⟩
    · refine ⟨fun h => absurd (a1.symm.trans h) (by simp), fun _ => ?_⟩
      exact a2.imp_right getLabelFromLine_none

theorem contains_ink {s w : Str} (h : Contains s w) (hw : ∀ c ∈ w, ¬ Space c) : Contains (ink s) w := by
  obtain ⟨a, b, rfl⟩ := h
  refine ⟨ink a, ink b, ?_⟩
  rw [ink_append, ink_append]
  congr 2
  unfold ink
  rw [List.filter_eq_self]
  intro c hc
  have := hw c hc
  simpa [Space, Classical.or_iff_not_imp_left] using this

theorem noCuda {L : Locale} {f : Filter} {s : Str} (h : NoCuda s) : ¬ HasCuda ((TParser.init f).readStream L s).lines := by
  rintro ⟨l, hl, k, hk⟩
  obtain ⟨a, bs, ret, c, t, h1, -, -, -, -, -, h2⟩ := hk
  rcases read_line L f s hl with h3 | h3
  · have e1 : l.text = [] := by have := congrArg TLine.text h3; exact this
    rw [e1] at h2
    have := congrArg List.length h2
    simp at this
  · obtain ⟨n, ws, raw, g1, g2, -, g3, -, -⟩ := h3.raw
    obtain ⟨sp, t', g4, g5, -, g6, -⟩ := lineText_shown f n (ws ++ raw)
    have e : ink l.text = ink raw := by
      rw [g3, g6, ink_cleaned]
      have := congrArg ink g4
      rw [ink_append, ink_append, ink_blanks g1, ink_spaces g5] at this
      exact this.symm
    have hc : Contains l.text (b! "." ++ k) := ⟨a, bs ++ ret ++ (c :: t) ++ b! "(", by rw [h2]; simp⟩
    have hmem : k = b! "entry" ∨ k = b! "func" := by simpa using h1
    rcases hmem with rfl | rfl
    · have := contains_ink hc (by unfold Space; decide)
      rw [e] at this
      exact (h raw g2).1 this
    · have := contains_ink hc (by unfold Space; decide)
      rw [e] at this
      exact (h raw g2).2 this

theorem noDoubleBlank_spec {b : Bool} {ls : List TLine} (h : NoDoubleBlank b ls) :
    (∀ l rest, ls = l :: rest → l.text = [] → b = false) ∧
    ∀ a x y rest, ls = a ++ x :: y :: rest → x.text ≠ [] ∨ y.text ≠ [] := by
  induction ls generalizing b with
  | nil => exact ⟨by simp, by simp⟩
  | cons l ls ih =>
    refine ⟨fun l' rest e => ?_, fun a x y rest e => ?_⟩
    · rw [List.cons.injEq] at e
      rw [← e.1]; exact h.1
    · cases a with
      | nil =>
        rw [List.nil_append, List.cons.injEq] at e
        by_cases hx : x.text = []
        · right
          intro hy
          have := (ih h.2).1 y rest e.2 hy
          rw [e.1] at this
          simp [hx] at this
        · exact .inl hx
      | cons z a =>
        rw [List.cons_append, List.cons.injEq] at e
        exact (ih h.2).2 a x y rest e.2

theorem filter_ink (xs : List (Str × Bool)) : (xs.map fun x => ink x.1).filter (· ≠ []) =
    ((xs.filter fun x => x.1 ≠ []).map fun x => ink x.1).filter (· ≠ []) := by
  induction xs with
  | nil => rfl
  | cons x xs ih =>
    by_cases hx : x.1 = []
    · rw [List.filter_cons_of_neg (by simp [hx]), List.map_cons, List.filter_cons_of_neg (by rw [hx]; decide), ih]
    · rw [List.filter_cons_of_pos (by simp [hx]), List.map_cons, List.map_cons, List.filter_cons, List.filter_cons, ih]

theorem shown_filter_ink {f : Filter} {lines : List TLine} {ps : List ((Str × Bool) × Str)}
    (h1 : (lines.map fun l => (l.text, l.isInlineAsm)).filter (fun x => x.1 ≠ []) = ps.map (·.1))
    (h3 : ∀ x ∈ ps, Shown f x.1.1 x.1.2 x.2) :
    (lines.map fun l => ink l.text).filter (· ≠ []) = (ps.map fun x => ink x.2).filter (· ≠ []) := by
  have e1 : (ps.map fun x => ink x.2) = (ps.map (·.1)).map fun x => ink x.1 := by
    rw [List.map_map]
    exact List.map_congr_left fun x hx => (shown_ink (h3 x hx)).symm
  rw [e1, ← h1, ← filter_ink, List.map_map]
  rfl

end AsmParser
