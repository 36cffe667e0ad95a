/-
Helper lemmas: the JSON document for the assembly code that a compiler writes, after the removal of unused labels.
-/
import Verif.Spec.CompiledLeftJson
import Verif.Proofs.CompiledJson

namespace AsmParser

attribute [local irreducible] Re.search Re.fullMatch

/-- Something for each line that is left, from the source position, the section, the lines after it and the line. -/
def rowsGen {α : Type} (f : Filter) (row : Option (Nat × Nat × Nat) → Str → List CLine → CLine → α) (x : Found) :
    Spot → Option (Nat × Nat × Nat) → Str → List CLine → List α
  | _, _, _, [] => []
  | s, pos, sect, l :: ls =>
    (if (s.after f.unusedLabels x l).keeps f.unusedLabels f.compatmode x l then [row (l.moves pos) (l.sectionAfter sect) ls l] else []) ++
      rowsGen f row x (s.after f.unusedLabels x l) (l.moves pos) (l.sectionAfter sect) ls

section
variable {α : Type} (f : Filter) (row : Option (Nat × Nat × Nat) → Str → List CLine → CLine → α) (x : Found)

theorem rowsGen_idx (xs : List CLine) (n : Nat) (s : Spot) (pos : Option (Nat × Nat × Nat)) (sect : Str)
    (at' : Nat → α) (h : ∀ j y, xs[j]? = some y → at' (n + j) =
      row ((xs.take (j + 1)).foldl CLine.moves pos) ((xs.take (j + 1)).foldl CLine.sectionAfter sect) (xs.drop (j + 1)) y) :
    (leftIdx f.unusedLabels f.compatmode x n s xs).map at' = rowsGen f row x s pos sect xs := by
  induction xs generalizing n s pos sect with
  | nil => rfl
  | cons y xs ih =>
    simp only [leftIdx, rowsGen]
    rw [List.map_append, ih (n + 1) (s.after f.unusedLabels x y) (y.moves pos) (y.sectionAfter sect)]
    · congr 1
      have := h 0 y rfl
      simp only [Nat.add_zero, Nat.zero_add, List.take_succ_cons, List.take_zero, List.foldl_cons, List.foldl_nil, List.drop_succ_cons,
        List.drop_zero] at this
      split
      · simp [this]
      · rfl
    · intro j z hj
      have := h (j + 1) z (by simpa using hj)
      rw [show n + 1 + j = n + (j + 1) by omega, this, List.take_succ_cons, List.foldl_cons, List.foldl_cons, List.drop_succ_cons]

/-- Directives that are of no use do not matter. -/
theorem rowsGen_directives (h : ∀ pos sect xs y, y.isDirective = false → row pos sect xs y = row pos sect (xs.filter fun x => !x.isDirective) y)
    (xs : List CLine) (s : Spot) (pos : Option (Nat × Nat × Nat)) (sect : Str) :
    rowsGen f row x s pos sect xs = rowsGen f row x s pos sect (xs.filter fun x => !x.isDirective) := by
  induction xs generalizing s pos sect with
  | nil => rfl
  | cons y xs ih =>
    cases hd : y.isDirective with
    | true =>
      rw [List.filter_cons_of_neg (by simp [hd])]
      cases y with
      | directive kw sep args => exact ih s pos sect
      | _ => cases hd
    | false =>
      rw [List.filter_cons_of_pos (by simp [hd])]
      simp only [rowsGen]
      rw [ih, h _ _ xs y hd]

theorem rowsGen_map {β : Type} (g : α → β) (xs : List CLine) (s : Spot) (pos : Option (Nat × Nat × Nat)) (sect : Str) :
    (rowsGen f row x s pos sect xs).map g = rowsGen f (fun a b c d => g (row a b c d)) x s pos sect xs := by
  induction xs generalizing s pos sect with
  | nil => rfl
  | cons y xs ih =>
    simp only [rowsGen]
    rw [List.map_append, ih]
    split <;> rfl

end

theorem rowsLeft_gen (f : Filter) (all : List CLine) (x : Found) (xs : List CLine) (s : Spot) (pos : Option (Nat × Nat × Nat)) (sect : Str) :
    rowsLeft f all x s pos sect xs = rowsGen f (rowJson f all) x s pos sect xs := by
  induction xs generalizing s pos sect with
  | nil => rfl
  | cons y xs ih => simp only [rowsLeft, rowsGen, ih]

theorem row_directives (f : Filter) (all : List CLine) (pos : Option (Nat × Nat × Nat)) (sect : Str) (xs : List CLine) (y : CLine) :
    rowJson f all pos sect xs y = rowJson f all pos sect (xs.filter fun x => !x.isDirective) y := by
  unfold rowJson CLine.position
  cases y with
  | label a nt => simp only [settle_directives _ xs]
  | _ => rfl

theorem row_all (f : Filter) {a b : List CLine} (h : positionShown a = positionShown b)
    (hc : ∀ l, (labelNames a).contains l = (labelNames b).contains l) (pos : Option (Nat × Nat × Nat)) (sect : Str) (xs : List CLine) (y : CLine) :
    rowJson f a pos sect xs y = rowJson f b pos sect xs y := by
  unfold rowJson CLine.references CLine.position
  simp only [h, hc]

/-- The line of the document, whether it may have references, and the text. -/
def rowMarked (f : Filter) (all : List CLine) (pos : Option (Nat × Nat × Nat)) (sect : Str) (rest : List CLine) (y : CLine) : JVal × Bool × Str :=
  (rowJson f all pos sect rest y, !y.isLabel, y.text)

/-- The same of a line of the result. -/
def TLine.marked (f : Filter) (l : TLine) : JVal × Bool × Str :=
  (lineJson f.compatmode (!f.dontMaskFilenames) l.toAsm, decide (l.isLabel = false ∧ (l.hasOpcode = true ∨ l.isData = true)), l.text)

end AsmParser
