/-
More input only adds to what text mode shows.
-/
import Verif.Proofs.MoreFilters
import Verif.Proofs.TextView

namespace AsmParser

attribute [local irreducible] Re.search Re.fullMatch

theorem inputLinesFrom_line (cur s t : Str) : inputLinesFrom cur (s ++ [10] ++ t) = inputLinesFrom cur (s ++ [10]) ++ inputLines t := by
  induction s generalizing cur with
  | nil => simp [inputLinesFrom, inputLines]
  | cons c s ih =>
    simp only [List.cons_append, inputLinesFrom]
    split
    · rw [ih]; rfl
    · exact ih _

/-- Lines that are complete stay the same when there is more. -/
theorem inputLines_more {s : Str} (h : s = [] ∨ s.getLast? = some 10) (t : Str) : inputLines (s ++ t) = inputLines s ++ inputLines t := by
  rcases h with rfl | h
  · rfl
  · obtain ⟨s', rfl⟩ := List.getLast?_eq_some_iff.1 h
    exact inputLinesFrom_line [] s' t

theorem collapseFrom_prefix (b : Bool) (xs ys : List Str) : collapseFrom b xs <+: collapseFrom b (xs ++ ys) := by
  induction xs generalizing b with
  | nil => exact List.nil_prefix
  | cons x xs ih =>
    simp only [List.cons_append, collapseFrom]
    split
    · split
      · exact ih _
      · exact List.prefix_cons_inj _ |>.2 (ih _)
    · exact List.prefix_cons_inj _ |>.2 (ih _)

theorem unlines_prefix {xs ys : List Str} (h : xs <+: ys) : unlines xs <+: unlines ys := by
  obtain ⟨zs, rfl⟩ := h
  exact ⟨unlines zs, by simp [unlines]⟩

variable [Recognizers]

theorem Scan.see_prefix (f : Filter) (s : Scan) (raw text : Str) : s.shown <+: (s.see f raw text).shown := by
  rw [(Scan.see_fields f s raw text).2.2.2.2.2]
  split
  · exact List.prefix_refl _
  · exact List.prefix_append _ _

theorem Scan.line_prefix (f : Filter) (s : Scan) (l : Str) : s.shown <+: (s.line f l).shown := by
  unfold Scan.line
  simp only
  split
  · exact List.prefix_refl _
  · split
    · exact List.prefix_append _ _
    · generalize (if startsWithWord [b! "#APP", b! "# Begin ASM"] (s.carry ++ l) = true then s.nest + 1
        else if startsWithWord [b! "#NO_APP", b! "# End ASM"] (s.carry ++ l) = true then s.nest - 1 else s.nest) = nest
      exact Scan.see_prefix f { s with nest, carry := [] } _ _

theorem Scan.lines_prefix (f : Filter) (s : Scan) (ls : List Str) : s.shown <+: (ls.foldl (Scan.line f) s).shown := by
  induction ls generalizing s with
  | nil => exact List.prefix_refl _
  | cons l ls ih => exact (Scan.line_prefix f s l).trans (ih _)

theorem scan_prefix (f : Filter) {s : Str} (h : s = [] ∨ s.getLast? = some 10) (t : Str) : (scan f s).shown <+: (scan f (s ++ t)).shown := by
  unfold scan
  rw [inputLines_more h, List.foldl_append]
  exact Scan.lines_prefix f _ _

end AsmParser
