/-
Helper lemmas: how the usage analysis depends on the iteration order of the hash containers.
-/
import Verif.Proofs.UsageMarks

namespace AsmParser

attribute [local irreducible] Re.search Re.fullMatch

/-! ### Orders that agree on the tables -/

/-- Two orders run through the entries of the tables in the same way. -/
structure SameRefs (g : Usage) (o o' : Order) : Prop where
  used : ∀ a, o.run (.used a) (refsOf g.used a) = o'.run (.used a) (refsOf g.used a)
  weak : ∀ a, o.run (.weak a) (refsOf g.weaklyUsed a) = o'.run (.weak a) (refsOf g.weaklyUsed a)
  data : ∀ a, o.run (.data a) (refsOf g.dataUsed a) = o'.run (.data a) (refsOf g.dataUsed a)

theorem isUsed_congr {g : Usage} {o o' : Order} (h : SameRefs g o o') (n : Nat) :
    ∀ a d v, isUsed g o n a d v = isUsed g o' n a d v := by
  induction n with
  | zero => intros; rfl
  | succ n ih =>
    intro a d v
    have h1 : codeCall g o n d = codeCall g o' n d := by
      funext r v
      unfold codeCall
      rw [ih]
    have h2 : (fun r v => isUsed g o n r (d - 1) v) = fun r v => isUsed g o' n r (d - 1) v := by
      funext r v
      exact ih _ _ _
    rw [isUsed_eq, isUsed_eq, h1, h2, h.used, h.weak, h.data]

theorem markLine_congr {g : Usage} {o o' : Order} (h : SameRefs g o o') (n : Nat) (l : TLine) (v : List Str) :
    markLine g o n l v = markLine g o' n l v := by
  have h1 : isUsedThroughAlias g o n = isUsedThroughAlias g o' n := by
    funext a v
    unfold isUsedThroughAlias
    split
    · exact isUsed_congr h n _ _ _
    · rfl
  unfold markLine isDataUsedThroughAlias
  rw [isUsed_congr h, h1, h.data]

theorem markLoop_congr {o o' : Order} (n : Nat) (names : List Str) (p : TParser) (v : List Str) (h : SameRefs p.usage o o') :
    p.markLoop o n names v = p.markLoop o' n names v := by
  induction names generalizing p v with
  | nil => rfl
  | cons a names ih =>
    unfold TParser.markLoop
    simp only
    split
    · exact ih { p with ub := true } v h
    · rw [markLine_congr h]
      split
      · rfl
      · rename_i line' w _
        exact ih { p with lines := p.lines.set _ line' } w h

theorem fromStream_congr {L : Locale} {o o' : Order} {n : Nat} {f : Filter} {s : Str} {v : List Str}
    (h : SameRefs (references L f s) o o')
    (hl : o.run .labels (((TParser.init f).readStream L s).labelsDefined.map (·.1)) =
      o'.run .labels (((TParser.init f).readStream L s).labelsDefined.map (·.1))) :
    (TParser.init f).fromStream L o n s v = (TParser.init f).fromStream L o' n s v := by
  unfold TParser.fromStream TParser.markLabelUsage
  rw [markLoop_congr n _ _ v h]
  rw [show o.run .labels (((TParser.init f).readStream L s).filterNonLabels.labelsDefined.map (·.1)) =
    o'.run .labels (((TParser.init f).readStream L s).filterNonLabels.labelsDefined.map (·.1)) from hl]

/-! ### Small tables -/

theorem run_short (o : Order) (k : OrdKey) {l : List Str} (h : l.length ≤ 1) : o.run k l = l := by
  have hp := o.perm k l
  match l, h with
  | [], _ => exact hp.eq_nil
  | [x], _ => exact List.perm_singleton.1 hp

/-- Every entry of the tables has at most one reference. -/
def ShortRefs (g : Usage) : Prop :=
  (∀ e ∈ g.used, e.2.length ≤ 1) ∧ (∀ e ∈ g.weaklyUsed, e.2.length ≤ 1) ∧ ∀ e ∈ g.dataUsed, e.2.length ≤ 1

instance (g : Usage) : Decidable (ShortRefs g) := by unfold ShortRefs; infer_instance

theorem refsOf_short {m : List (Str × List Str)} (h : ∀ e ∈ m, e.2.length ≤ 1) (a : Str) : (refsOf m a).length ≤ 1 := by
  unfold refsOf
  cases hl : m.lookup a with
  | none => simp
  | some rs => exact h _ (mem_of_lookup_str hl)

theorem sameRefs_short {g : Usage} (h : ShortRefs g) (o o' : Order) : SameRefs g o o' := by
  obtain ⟨h1, h2, h3⟩ := h
  refine ⟨fun a => ?_, fun a => ?_, fun a => ?_⟩
  · rw [run_short o _ (refsOf_short h1 a), run_short o' _ (refsOf_short h1 a)]
  · rw [run_short o _ (refsOf_short h2 a), run_short o' _ (refsOf_short h2 a)]
  · rw [run_short o _ (refsOf_short h3 a), run_short o' _ (refsOf_short h3 a)]

theorem perm_two {l : List Str} {x y : Str} (h : l.Perm [x, y]) : l = [x, y] ∨ l = [y, x] := by
  match l, h.length_eq with
  | [a, b], _ =>
    have ha : a ∈ [x, y] := h.mem_iff.1 (by simp)
    have hb := h
    rcases List.mem_cons.1 ha with rfl | ha
    · have := List.perm_singleton.1 (List.Perm.cons_inv h)
      rw [List.cons.injEq] at this
      rw [this.1]; exact .inl rfl
    · rw [List.mem_singleton] at ha
      subst ha
      have h2 : [a, b].Perm [a, x] := h.trans (List.Perm.swap ..)
      have := List.perm_singleton.1 (List.Perm.cons_inv h2)
      rw [List.cons.injEq] at this
      rw [this.1]; exact .inr rfl

/-- For two labels there are only two orders. -/
theorem fromStream_two {L : Locale} {f : Filter} {s : Str} {x y : Str} (h : ShortRefs (references L f s))
    (hl : ((TParser.init f).readStream L s).labelsDefined.map (·.1) = [x, y]) (o : Order) (n : Nat) (v : List Str) :
    (TParser.init f).fromStream L o n s v = (TParser.init f).fromStream L Order.id n s v ∨
    (TParser.init f).fromStream L o n s v = (TParser.init f).fromStream L Order.rev n s v := by
  rcases perm_two (hl ▸ o.perm .labels [x, y] : (o.run .labels [x, y]).Perm [x, y]) with e | e
  · exact .inl (fromStream_congr (sameRefs_short h _ _) (by rw [hl, e]; rfl))
  · exact .inr (fromStream_congr (sameRefs_short h _ _) (by rw [hl, e]; rfl))

/-- The number of steps does not matter. -/
theorem fromStream_fuel {L : Locale} {o : Order} {n m : Nat} {p : TParser} {s : Str} {v : List Str} {x y : TParser × List Str}
    (h : p.fromStream L o n s v = some x) (h' : p.fromStream L o m s v = some y) : x = y := by
  have h1 := fromStream_mono (Nat.le_add_right n m) h
  have h2 := fromStream_mono (Nat.le_add_left m n) h'
  rw [h1] at h2
  exact Option.some.inj h2

/-! ### Output without the filter -/

theorem read_filter (L : Locale) (f : Filter) (s : Str) : ((TParser.init f).readStream L s).filter = f := by
  obtain ⟨e, -, -, h, -⟩ := readStream_lines L f (fun _ _ => True) trivial (fun _ _ _ _ _ _ _ _ => trivial) s
  exact h

theorem finishKept_noUse (q : TParser) (l : TLine) : (q.finishKept l).noUse = q.finishKept l.noUse := by
  unfold TParser.finishKept TLine.noUse
  simp only
  split
  · split <;> rfl
  · rfl

/-- The lines of the result, except for the usage flags. -/
theorem result_lines {L : Locale} {f : Filter} {s : Str} {p : TParser} (h : TextResult L f s p) (hu : f.unusedLabels = false)
    (hd : (f.compatmode && f.directives) = false ∨ ∀ l ∈ heldLines L f s, l.isData = true → l.source.insideProc = true) :
    p.lines.map TLine.noUse = (heldLines L f s).map fun l => ((TParser.init f).readStream L s).finishKept l.noUse := by
  obtain ⟨us, ls, lines, fl, ub, rfl, h1, sub, h2, h3, h4⟩ := h.outcome.frame
  obtain ⟨h5, h6⟩ := h4 hu
  have hsub : sub = ls := by
    rcases hd with hd | hd
    · exact h6 hd
    · have all : ∀ l ∈ ls, (!l.looseData) = true := by
        intro l hl
        have : l.noUse ∈ ls.map TLine.noUse := List.mem_map.2 ⟨l, hl, rfl⟩
        rw [h1, List.mem_map] at this
        obtain ⟨l0, h0, e⟩ := this
        have e1 : l0.isData = l.isData := by have := congrArg TLine.isData e; exact this
        have e2 : l0.source = l.source := by have := congrArg TLine.source e; exact this
        have := hd l0 h0
        unfold TLine.looseData
        rw [e1, e2] at this
        cases hdt : l.isData with
        | false => rfl
        | true => rw [this hdt]; rfl
      rw [List.filter_eq_self.2 all, List.filter_eq_self.2 fun l hl => all l (h2.subset hl)] at h5
      exact h5
  show lines.map TLine.noUse = _
  rw [h3, hsub, List.map_map]
  have : ∀ ls : List TLine, ls.map (TLine.noUse ∘ ((TParser.init f).readStream L s).finishKept) =
      (ls.map TLine.noUse).map ((TParser.init f).readStream L s).finishKept := by
    intro ls
    rw [List.map_map]
    exact List.map_congr_left fun l _ => finishKept_noUse _ l
  rw [this, h1, List.map_map]
  rfl

theorem redetermine_noUse (n : Nat) (ls : List TLine) : redetermineLabels n ls = redetermineLabels n (ls.map TLine.noUse) := by
  induction ls generalizing n with
  | nil => rfl
  | cons l ls ih =>
    unfold redetermineLabels
    rw [List.map_cons]
    simp only [← ih]
    rfl

end AsmParser
