/-
Helper lemmas: what is left when superfluous blanks are removed.
-/
import Verif.Spec.Tidied
import Verif.Proofs.Respaced
import Verif.Props.TextUtils

namespace AsmParser

theorem squeeze_oneBlank (s : Str) : squeeze false s = oneBlank s ∧ squeeze true s = oneBlank (s.drop (indentation s).length) := by
  induction s with
  | nil => exact ⟨rfl, rfl⟩
  | cons c s ih =>
    by_cases hc : Blank c
    · have e : (indentation (c :: s)).length = (indentation s).length + 1 := by simp [indentation, hc]
      refine ⟨?_, by rw [squeeze, if_pos hc, if_pos rfl, e, ih.2]; rfl⟩
      rw [squeeze, if_pos hc, if_neg (by decide), ih.2, oneBlank, if_pos hc]
      cases s with
      | nil => rfl
      | cons d s =>
        by_cases hd : Blank d
        · rw [if_pos ⟨d, rfl, hd⟩, ← ih.1, squeeze, if_pos hd, if_neg (by decide), ← ih.2, squeeze, if_pos hd, if_pos rfl]
        · rw [if_neg (by rintro ⟨x, hx, hb⟩; cases hx; exact hd hb)]
          simp [indentation, hd]
    · have e : (indentation (c :: s)).length = 0 := by simp [indentation, hc]
      rw [e, List.drop_zero, oneBlank_char hc, squeeze, squeeze, if_neg hc, if_neg hc, ih.1]
      exact ⟨rfl, rfl⟩

theorem indentation_split (s : Str) : s = indentation s ++ s.drop (indentation s).length ∧ Blanks (indentation s) ∧
    ∀ d ∈ (s.drop (indentation s).length).head?, ¬ Blank d := by
  induction s with
  | nil => exact ⟨rfl, fun c hc => (by cases hc), fun d hd => (by cases hd)⟩
  | cons c s ih =>
    by_cases hc : Blank c
    · have e : indentation (c :: s) = c :: indentation s := by simp [indentation, hc]
      rw [e]
      exact ⟨congrArg (c :: ·) ih.1, fun x hx => (List.mem_cons.1 hx).elim (fun h => h ▸ hc) (ih.2.1 x), ih.2.2⟩
    · have e : indentation (c :: s) = [] := by simp [indentation, hc]
      rw [e]
      exact ⟨rfl, fun c hc => (by cases hc), fun d hd => (by cases hd; exact hc)⟩

theorem squash_tidied (s : Str) : squashHorizontalWhitespace s true = tidied s := by
  obtain ⟨h1, h2, h3⟩ := indentation_split s
  unfold tidied
  generalize s.drop (indentation s).length = rest at *
  generalize indentation s = bs at *
  subst h1
  cases rest with
  | nil =>
    unfold squashHorizontalWhitespace
    rw [if_pos]
    rw [Bool.true_and, List.all_eq_true]
    exact fun c hc => blank_iff.1 (h2 c (by simpa using hc))
  | cons c r =>
    have hc := h3 c rfl
    have e : squashHorizontalWhitespace (bs ++ c :: r) true = squashLoop .start (bs ++ c :: r) := by
      unfold squashHorizontalWhitespace
      rw [if_neg, if_pos rfl]
      intro h
      rw [Bool.true_and, List.all_eq_true] at h
      exact hc (blank_iff.2 (h c (by simp)))
    rw [e]
    match bs, h2 with
    | [], _ => rw [List.nil_append, squash_start_word hc, (squeeze_oneBlank r).2]; rfl
    | [b], hb => rw [List.singleton_append, squash_start_one (hb b (by simp)) hc, (squeeze_oneBlank r).2]; rfl
    | a :: b :: bs, hb =>
      rw [List.cons_append, List.cons_append, squash_start_two (hb a (by simp)) (hb b (by simp)),
        squeeze_skip (fun d hd => hb d (List.mem_cons_of_mem _ (List.mem_cons_of_mem _ hd))), squeeze, if_neg hc, (squeeze_oneBlank r).1]
      show _ = if 2 ≤ bs.length + 1 + 1 then _ else _
      rw [if_pos (by omega), oneBlank_char hc]
      rfl

theorem quotes_tidied (s : Str) (b : Bool) : Tidied s (squashHorizontalWhitespaceWithQuotes s b) := by
  obtain ⟨qs, h⟩ := C26_total s
  induction h generalizing b with
  | none h => rw [squashQuotes_none b h, squash_tidied]; exact .none h
  | cons h _ ih => rw [squashQuotes_first b h, squash_tidied]; exact .cons h (ih true)

end AsmParser
