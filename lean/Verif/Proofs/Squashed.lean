/-
Helper lemmas: the texts with the filter `whitespace`.
-/
import Verif.Props.Respaced
import Verif.Proofs.SourceRead
import Verif.Proofs.Resume

namespace AsmParser

attribute [local irreducible] Re.search Re.fullMatch

/-- What the filter makes of a text. -/
abbrev squashed (t : Str) : Str := squashHorizontalWhitespaceWithQuotes t true

/-! ### Reading -/

theorem collapseFrom_snoc (t : Str) (a : List Str) (b : Bool) :
    collapseFrom b (a ++ [t]) = collapseFrom b a ∨ collapseFrom b (a ++ [t]) = collapseFrom b a ++ [t] := by
  induction a generalizing b with
  | nil =>
    simp only [List.nil_append, collapseFrom]
    split
    · split <;> simp_all
    · simp
  | cons x a ih =>
    simp only [List.cons_append, collapseFrom]
    split
    · split
      · exact ih true
      · rcases ih true with h | h <;> rw [h] <;> simp
    · rcases ih false with h | h <;> rw [h] <;> simp

section
variable [Recognizers]

theorem Scan.see_same (f : Filter) (s : Scan) (raw text : Str) :
    (Scan.see f s raw text).inside = s.inside ∧ (Scan.see f s raw text).nest = s.nest ∧ (Scan.see f s raw text).carry = s.carry ∧
    ((Scan.see f s raw text).shown = s.shown ∨ (Scan.see f s raw text).shown = s.shown ++ [text]) := by
  unfold Scan.see
  dsimp only
  repeat' split
  all_goals refine ⟨rfl, rfl, rfl, ?_⟩
  all_goals first | exact .inl rfl | exact .inr rfl

/-- The two scans go on together. -/
theorem line_squashed {f : Filter} (hf : f.whitespace = false) {s s' : Scan} (h1 : s.inside = s'.inside) (h2 : s.nest = s'.nest)
    (h3 : s.carry = s'.carry) (l : Str) : ∃ t, 
      (Scan.line f s l).inside = (Scan.line { f with whitespace := true } s' l).inside ∧
      (Scan.line f s l).nest = (Scan.line { f with whitespace := true } s' l).nest ∧
      (Scan.line f s l).carry = (Scan.line { f with whitespace := true } s' l).carry ∧
      ((Scan.line f s l).shown = s.shown ∨ (Scan.line f s l).shown = s.shown ++ [t]) ∧
      ((Scan.line { f with whitespace := true } s' l).shown = s'.shown ∨
        (Scan.line { f with whitespace := true } s' l).shown = s'.shown ++ [squashed t]) := by
  unfold Scan.line
  simp only [h1, h2, h3]
  split
  · exact ⟨[], rfl, rfl, rfl, .inl rfl, .inl rfl⟩
  · split
    · exact ⟨[], rfl, rfl, rfl, .inr rfl, .inr (by rw [show squashed [] = [] by decide +kernel])⟩
    · generalize (if startsWithWord _ _ = true then s'.nest + 1 else _) = nest
      generalize (if nest > 0 then fixLabelIndentation _ else _) = u
      have e1 : cleaned f u = expandTabs u := by unfold cleaned; rw [hf]; rfl
      have e2 : cleaned { f with whitespace := true } u = squashed (expandTabs u) := rfl
      rw [e1, e2]
      obtain ⟨a1, a2, a3, a4⟩ := Scan.see_same f { s with inside := s'.inside, nest, carry := [] } (s'.carry ++ l) (expandTabs u)
      obtain ⟨b1, b2, b3, b4⟩ := Scan.see_same { f with whitespace := true } { s' with nest, carry := [] } (s'.carry ++ l) (squashed (expandTabs u))
      exact ⟨expandTabs u, a1.trans b1.symm, a2.trans b2.symm, a3.trans b3.symm, a4, b4⟩

theorem collapse_adds {a a' : List Str} {t : Str} (h : a' = a ∨ a' = a ++ [t]) : collapse a' = collapse a ∨ collapse a' = collapse a ++ [t] := by
  rcases h with rfl | rfl
  · exact .inl rfl
  · exact collapseFrom_snoc t a true

/-- The lines that are read. -/
theorem read_squashed (L : Locale) {f : Filter} (hf : f.whitespace = false) (ls : List Str) (h10 : ∀ l ∈ ls, 10 ∉ l)
    {G : Prop} (hG : ∀ l ∈ ls, l ≠ [] → Blanks l → G) (h : ∀ l ∈ ls, ¬ Blanks l → EvenlySpaced G l) :
    (ls.foldl (Scan.line f) {}).inside = (ls.foldl (Scan.line { f with whitespace := true }) {}).inside ∧
    (ls.foldl (Scan.line f) {}).nest = (ls.foldl (Scan.line { f with whitespace := true }) {}).nest ∧
    (ls.foldl (Scan.line f) {}).carry = (ls.foldl (Scan.line { f with whitespace := true }) {}).carry ∧
    collapse (ls.foldl (Scan.line { f with whitespace := true }) {}).shown = (collapse (ls.foldl (Scan.line f) {}).shown).map squashed := by
  have length : ∀ ls : List Str, (∀ l ∈ ls, 10 ∉ l) → (∀ l ∈ ls, l ≠ [] → Blanks l → G) → (∀ l ∈ ls, ¬ Blanks l → EvenlySpaced G l) →
      (collapse (ls.foldl (Scan.line { f with whitespace := true }) {}).shown).length = (collapse (ls.foldl (Scan.line f) {}).shown).length := by
    intro ls h10 hG h
    have e := read_even L f true (unlines ls) (by
      unfold EvenInput
      rw [inputLines_unlines _ h10]
      exact fun l hl hb ws sp t h1 h2 => h l hl hb ws sp t h1 (h2.imp id fun ⟨b, k1, k2, k3⟩ => hG b k1 k2 k3))
    have e1 := congrArg (fun p => p.lines.length) e
    have t1 := congrArg List.length (readTags L f (unlines ls)).2.1
    have t2 := congrArg List.length (readTags L { f with whitespace := true } (unlines ls)).2.1
    unfold scan at t1 t2
    rw [inputLines_unlines _ h10, List.length_map] at t1 t2
    rw [← t1, ← t2]
    have e2 : ∀ p : TParser, p.worded.lines.length = p.lines.length := fun p => by
      show (p.lines.map TLine.worded).length = _
      rw [List.length_map]
    have e1 : ((TParser.init f).readStream L (unlines ls)).worded.lines.length =
      ((TParser.init { f with whitespace := true }).readStream L (unlines ls)).worded.lines.length := e1
    rw [e2, e2] at e1
    exact e1.symm
  generalize hr : ls.reverse = rs
  induction rs generalizing ls with
  | nil =>
    obtain rfl : ls = [] := by simpa using hr
    exact ⟨rfl, rfl, rfl, rfl⟩
  | cons l rs ih =>
    have els : ls = rs.reverse ++ [l] := by rw [← List.reverse_reverse ls, hr, List.reverse_cons]
    obtain ⟨i1, i2, i3, i4⟩ := ih rs.reverse (fun x hx => h10 x (by rw [els]; simp [hx])) (fun x hx => hG x (by rw [els]; simp [hx])) (fun x hx => h x (by rw [els]; simp [hx])) (by simp)
    have hl := length ls h10 hG h
    have hl' := length rs.reverse (fun x hx => h10 x (by rw [els]; simp [hx])) (fun x hx => hG x (by rw [els]; simp [hx])) (fun x hx => h x (by rw [els]; simp [hx]))
    rw [els] at hl ⊢
    simp only [List.foldl_append, List.foldl_cons, List.foldl_nil] at hl ⊢
    obtain ⟨t, k1, k2, k3, k4, k5⟩ := line_squashed hf i1 i2 i3 l
    refine ⟨k1, k2, k3, ?_⟩
    rcases collapse_adds k4 with c | c <;> rcases collapse_adds k5 with d | d <;> rw [c, d] at hl ⊢
    · exact i4
    · rw [List.length_append, hl'] at hl; simp at hl
    · rw [List.length_append, hl'] at hl; simp at hl
    · rw [i4]; simp

end

/-! ### The result -/

theorem removeLoop_squashed {p q : TParser} (h : p.worded = q.worded) (g : Str → Str) (ls : List TLine) : ∀ (ls' : List TLine) (r : RemState),
    ls.map TLine.worded = ls'.map TLine.worded → ls'.map TLine.text = ls.map (fun l => g l.text) →
    (q.removeLoop r ls').1.map TLine.text = (p.removeLoop r ls).1.map fun l => g l.text := by
  induction ls with
  | nil =>
    intro ls' r hl _
    cases ls' with
    | nil => rfl
    | cons _ _ => cases hl
  | cons x ls ih =>
    intro ls' r hl ht
    cases ls' with
    | nil => cases hl
    | cons y ls' =>
      rw [List.map_cons, List.map_cons, List.cons.injEq] at hl ht
      have k1 : ∀ r, remLabel p.filter p.usage r x = remLabel q.filter q.usage r y := by
        intro r
        have : ∀ (p : TParser) l, remLabel p.filter p.usage r l = remLabel p.worded.filter p.worded.usage r l.worded := fun _ _ => rfl
        rw [this, this q y, hl.1, h]
      have k2 : ∀ r b, remDrop p.filter r b x = remDrop q.filter r b y := by
        intro r b
        have : ∀ (p : TParser) l, remDrop p.filter r b l = remDrop p.worded.filter r b l.worded := fun _ _ => rfl
        rw [this, this q y, hl.1, h]
      rw [TParser.removeLoop, TParser.removeLoop]
      simp only [k1, k2]
      have := ih ls' (remLabel q.filter q.usage r y).1 hl.2 ht.2
      split
      · exact this
      · rw [List.map_cons, List.map_cons, this, finishKept_text, finishKept_text, ht.1]

theorem result_squashed {L : Locale} {p q : TParser} {s : Str} (h : (p.readStream L s).worded = (q.readStream L s).worded) (g : Str → Str)
    (ht : (q.readStream L s).lines.map TLine.text = (p.readStream L s).lines.map fun l => g l.text) (o : Order) (n : Nat) (v : List Str)
    {r : TParser} {v' : List Str} (hr : p.fromStream L o n s v = some (r, v')) :
    ∃ r', q.fromStream L o n s v = some (r', v') ∧ r'.worded = r.worded ∧ r'.lines.map TLine.text = r.lines.map fun l => g l.text := by
  obtain ⟨r', k, kw⟩ := result_worded h o n v hr
  refine ⟨r', k, kw, ?_⟩
  unfold TParser.fromStream at hr k
  generalize p.readStream L s = a at *
  generalize q.readStream L s = b at *
  have h' := filterNonLabels_worded h
  have ht : b.filterNonLabels.lines.map TLine.text = a.filterNonLabels.lines.map fun l => g l.text := ht
  generalize a.filterNonLabels = a at *
  generalize b.filterNonLabels = b at *
  have hd : a.labelsDefined = b.labelsDefined := (congrArg TParser.labelsDefined h' :)
  have key := markLoop_worded o n (o.run .labels (a.labelsDefined.map (·.1))) v h'
  cases ha : a.markLabelUsage o n v with
  | none => rw [ha] at hr; cases hr
  | some x =>
    obtain ⟨x, w⟩ := x
    cases hb : b.markLabelUsage o n v with
    | none => rw [hb] at k; cases k
    | some y =>
      obtain ⟨y, w'⟩ := y
      rw [ha] at hr
      rw [hb] at k
      simp only [Option.some.injEq, Prod.mk.injEq] at hr k
      obtain ⟨la, ua, ea, fa⟩ := markLabelUsage_frame ha
      obtain ⟨lb, ub, eb, fb⟩ := markLabelUsage_frame hb
      unfold TParser.markLabelUsage at ha hb
      rw [← hd] at hb
      rw [ha, hb] at key
      simp only [Option.map_some, Option.some.injEq, Prod.mk.injEq] at key
      have hl : x.lines.map TLine.worded = y.lines.map TLine.worded := (congrArg TParser.lines key.1 :)
      have tx : ∀ {ls ms : List TLine}, ls.map TLine.noUse = ms.map TLine.noUse → ls.map TLine.text = ms.map TLine.text := by
        intro ls ms e
        have := congrArg (List.map TLine.text) e
        rw [List.map_map, List.map_map] at this
        exact this
      have hx : x.lines = la := by rw [ea]
      have hy : y.lines = lb := by rw [eb]
      have e1 : y.lines.map TLine.text = x.lines.map fun l => g l.text := by
        rw [hx, hy, tx fb, ht]
        have := congrArg (List.map g) (tx fa)
        rw [List.map_map, List.map_map] at this
        exact this.symm
      rw [← hr.1, ← k.1]
      exact removeLoop_squashed key.1 g _ _ _ hl e1

end AsmParser
