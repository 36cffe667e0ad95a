/-
Helper lemmas: the lines shown of the assembly code that a compiler writes.
-/
import Verif.Proofs.CompiledPos
import Verif.Spec.Circles

namespace AsmParser

attribute [local irreducible] Re.search Re.fullMatch

/-! ### Lists of numbers -/

theorem sorted_sublist : ∀ (b a : List Nat), a.Pairwise (· < ·) → b.Pairwise (· < ·) → (∀ k ∈ a, k ∈ b) → a.Sublist b := by
  intro b
  induction b with
  | nil =>
    intro a _ _ h
    cases a with
    | nil => exact .slnil
    | cons k a => exact absurd (h k (by simp)) (by simp)
  | cons m b ih =>
    intro a ha hb h
    cases a with
    | nil => exact List.nil_sublist _
    | cons k a =>
      rw [List.pairwise_cons] at ha hb
      by_cases e : k = m
      · subst e
        refine (ih a ha.2 hb.2 fun j hj => ?_).cons_cons _
        rcases List.mem_cons.1 (h j (by simp [hj])) with e | h'
        · have := ha.1 j hj; omega
        · exact h'
      · refine (ih (k :: a) (List.pairwise_cons.2 ha) hb.2 fun j hj => ?_).cons _
        rcases List.mem_cons.1 (h j hj) with e' | h'
        · exfalso
          have hk : k ∈ b := by
            rcases List.mem_cons.1 (h k (by simp)) with e' | h'
            · exact (e e').elim
            · exact h'
          have := hb.1 k hk
          rcases List.mem_cons.1 hj with e'' | hj
          · omega
          · have := ha.1 j hj; omega
        · exact h'

/-- The numbers of the lines shown. -/
def shownIdx (n : Nat) : List CLine → List Nat
  | [] => []
  | x :: xs => (if x.shows then [n] else []) ++ shownIdx (n + 1) xs

theorem mem_shownIdx {xs : List CLine} {n k : Nat} : k ∈ shownIdx n xs ↔ ∃ j x, k = n + j ∧ xs[j]? = some x ∧ x.shows = true := by
  induction xs generalizing n with
  | nil => simp [shownIdx]
  | cons x xs ih =>
    unfold shownIdx
    rw [List.mem_append, ih]
    constructor
    · rintro (h | ⟨j, y, rfl, h1, h2⟩)
      · cases hs : x.shows with
        | false => rw [hs] at h; simp at h
        | true => rw [hs] at h; simp at h; exact ⟨0, x, by omega, rfl, hs⟩
      · exact ⟨j + 1, y, by omega, by simpa using h1, h2⟩
    · rintro ⟨j, y, rfl, h1, h2⟩
      cases j with
      | zero =>
        simp only [List.getElem?_cons_zero, Option.some.injEq] at h1
        subst h1
        left; simp [h2]
      | succ j => exact .inr ⟨j, y, by omega, by simpa using h1, h2⟩

theorem shownIdx_sorted (xs : List CLine) (n : Nat) : (shownIdx n xs).Pairwise (· < ·) := by
  induction xs generalizing n with
  | nil => exact .nil
  | cons x xs ih =>
    unfold shownIdx
    refine List.pairwise_append.2 ⟨?_, ih (n + 1), ?_⟩
    · split <;> simp
    · intro a ha b hb
      obtain ⟨j, -, rfl, -⟩ := mem_shownIdx.1 hb
      have : a = n := by
        split at ha <;> simp at ha
        exact ha
      omega

/-- What is shown of the line with number `k`. -/
theorem shownIdx_rows (all xs : List CLine) (n : Nat) (pos : Option (Nat × Nat × Nat)) (row : Nat → Str × Bool × Option (Str × Int × Int))
    (h : ∀ j x, xs[j]? = some x → x.shows = true →
      row (n + j) = (x.text, x.isLabel, if x.isLabel then none else positionShown all ((xs.take (j + 1)).foldl CLine.moves pos))) :
    (shownIdx n xs).map row = shownOf all pos xs := by
  induction xs generalizing n pos with
  | nil => rfl
  | cons x xs ih =>
    unfold shownIdx shownOf
    rw [List.map_append, ih (n + 1) (x.moves pos)]
    · congr 1
      cases hs : x.shows with
      | false => rfl
      | true =>
        have := h 0 x rfl hs
        simp only [Nat.add_zero, Nat.zero_add, List.take_succ_cons, List.take_zero, List.foldl_cons, List.foldl_nil] at this
        simp [this]
    · intro j y hj hy
      have := h (j + 1) y (by simpa using hj) hy
      rw [show n + 1 + j = n + (j + 1) by omega, this, List.take_succ_cons, List.foldl_cons]

/-! ### Directives do not matter -/

theorem shownOf_directives (all xs : List CLine) (pos : Option (Nat × Nat × Nat)) :
    shownOf all pos xs = shownOf all pos (xs.filter fun x => !x.isDirective) := by
  induction xs generalizing pos with
  | nil => rfl
  | cons x xs ih =>
    cases hd : x.isDirective with
    | true =>
      rw [List.filter_cons_of_neg (by simp [hd])]
      cases x with
      | directive kw sep args => exact ih pos
      | _ => cases hd
    | false =>
      rw [List.filter_cons_of_pos (by simp [hd])]
      unfold shownOf
      rw [ih]

theorem names_directives (i : Nat) (xs : List CLine) : xs.findSome? (CLine.names i) = (xs.filter fun x => !x.isDirective).findSome? (CLine.names i) := by
  induction xs with
  | nil => rfl
  | cons x xs ih =>
    cases hd : x.isDirective with
    | true =>
      rw [List.filter_cons_of_neg (by simp [hd])]
      cases x with
      | directive kw sep args => exact ih
      | _ => cases hd
    | false =>
      rw [List.filter_cons_of_pos (by simp [hd]), List.findSome?_cons, List.findSome?_cons, ih]

theorem positionShown_directives {xs ys : List CLine} (h : ys.filter (fun x => !x.isDirective) = xs.filter fun x => !x.isDirective) :
    positionShown ys = positionShown xs := by
  funext q
  cases q with
  | none => rfl
  | some q =>
    obtain ⟨i, n, c⟩ := q
    unfold positionShown
    simp only
    rw [names_directives i ys.reverse, names_directives i xs.reverse, List.filter_reverse, List.filter_reverse, h]

theorem shownOf_all {a b : List CLine} (h : positionShown a = positionShown b) (xs : List CLine) (pos : Option (Nat × Nat × Nat)) :
    shownOf a pos xs = shownOf b pos xs := by
  induction xs generalizing pos with
  | nil => rfl
  | cons x xs ih => unfold shownOf; rw [ih, h]

theorem shownOf_text (all xs : List CLine) (pos : Option (Nat × Nat × Nat)) :
    (shownOf all pos xs).map (·.1) = (xs.filter CLine.shows).map CLine.text := by
  induction xs generalizing pos with
  | nil => rfl
  | cons x xs ih =>
    unfold shownOf
    rw [List.map_append, ih]
    cases hs : x.shows with
    | false => rw [List.filter_cons_of_neg (by simp [hs])]; rfl
    | true => rw [List.filter_cons_of_pos (by simp [hs])]; rfl

/-! ### Kept lines -/

theorem cline_kept {f : Filter} (hf : UsualFilter f) {x : CLine} (h : x.Wf) : x.seen.Kept f ↔ x.shows = true := by
  unfold Seen.Kept
  cases hc : x.isComment with
  | true =>
    have : x.shows = false := by cases x <;> first | rfl | cases hc
    simp [CLine.seen, hc, this]
  | false =>
    have h1 : ¬ x.seen.Header := fun hh => not_cuda h hh.2
    rw [show x.seen.text = x.text from rfl, plain_iff h hc, hf.directives]
    have h2 : x.shows = true → ¬ x.seen.Info := by
      rintro hs ⟨-, hi⟩
      have := (cline_info h.usual).1 hi
      cases x <;> first | (cases this; done) | (cases hs; done)
    have h3 : x.seen.skipped = false := hc
    have h4 : x.seen.params = false := rfl
    cases hs : x.shows with
    | false => simp [h1, h4]
    | true => simp [h3, h2 hs]

theorem comment_plain {ind m t : Str} (h : (CLine.comment ind m t).Usual) : ¬ PlainDirective (CLine.comment ind m t).text := by
  rintro ⟨⟨bs, r, hb, e⟩, -⟩
  obtain ⟨bs', c, r', e', hb', hc⟩ := comment_text h
  rw [e'] at e
  exact hc.not.2.2.2 (blanks_first hb' hb hc.not.1 (by decide) e).1

theorem text_first {x : CLine} (h : x.Usual) (hn : x.isComment = false) : ∃ bs c r, x.text = bs ++ c :: r ∧ Blanks bs ∧ SymbolChar c := by
  obtain ⟨bs, c, r, e, hb, h'⟩ := render_first h
  rcases h' with ⟨m, t, rfl, -⟩ | ⟨-, hc⟩
  · cases hn
  · obtain ⟨bs', k, e', hb', -⟩ := padTabs_sep bs (c :: r) 0 hb
    refine ⟨bs', c, padTabs (k + 1) r, ?_, hb', hc⟩
    unfold CLine.text
    rw [e, expandTabs_eq, e', padTabs, if_neg (fun e => symbolChar_solid hc (.inr e))]

theorem shows_text {x y : CLine} (hx : x.Wf) (hy : y.Wf) (e : x.text = y.text) (hs : x.shows = true) : y.shows = true := by
  have hn : x.isComment = false := by cases x <;> first | rfl | cases hs
  have hp : ¬ PlainDirective x.text := by rw [plain_iff hx hn, hs]; simp
  cases hc : y.isComment with
  | true =>
    exfalso
    cases y with
    | comment ind m t =>
      obtain ⟨bs', c', r', e', hb', hc'⟩ := comment_text hy.usual
      obtain ⟨bs, c, r, e2, hb, hc⟩ := text_first hx.usual hn
      rw [e', e2] at e
      have := (blanks_first hb hb' (symbolChar_solid hc) hc'.not.1 e).1
      rw [this] at hc
      exact hc'.not.2.2.1 hc
    | _ => cases hc
  | false =>
    rw [e, plain_iff hy hc, Bool.not_eq_false] at hp
    exact hp

theorem text_ne_nil {x : CLine} (h : x.Wf) (hs : x.shows = true) : x.text ≠ [] := by
  cases x with
  | label name nt => obtain ⟨r, e, -⟩ := label_text h.usual; rw [e]; simp
  | instr kw sep args =>
    obtain ⟨r', e'⟩ := h.usual.padded (kw := kw) (sep := sep) (args := args) rfl
    rw [e']; simp
  | data kw sep args =>
    obtain ⟨r', e'⟩ := h.usual.padded (kw := kw) (sep := sep) (args := args) rfl
    rw [e']; simp
  | _ => cases hs

theorem seen_label {x : CLine} (h : x.Wf) (hs : x.shows = true) : x.isLabel = true ↔ ∃ l, x.seen.Defines l := by
  constructor
  · intro hl
    cases x with
    | label name nt =>
      obtain ⟨r, e, -⟩ := label_text h.usual
      refine ⟨name, rfl, ?_, .inl (.inl ⟨h.usual.1, fun c hc => .inl (h.usual.2.1 c hc), .inl ⟨r, e.trans (by simp)⟩⟩)⟩
      rintro ⟨-, hi⟩
      have := (cline_info h.usual).1 hi
      cases this
    | _ => cases hl
  · rintro ⟨l, -, -, hd⟩
    cases hl : x.isLabel with
    | true => rfl
    | false =>
      have hn : x.isComment = false := by cases x <;> first | rfl | cases hs
      have hnd := not_defines h hl hn l
      rcases hd with (hd | ⟨hd, -⟩) | hd | hd
      · exact (hnd (.inl hd)).elim
      · exact (not_cuda h hd).elim
      · exact (hnd (.inr (.inl hd))).elim
      · exact (hnd (.inr (.inr (.inl hd)))).elim

/-! ### Pairs -/

theorem pairs_eq {α β : Type} {a b : List (α × β)} (h1 : a.map (·.1) = b.map (·.1)) (h2 : a.map (·.2) = b.map (·.2)) : a = b := by
  induction a generalizing b with
  | nil => cases b with
    | nil => rfl
    | cons y b => simp at h1
  | cons x a ih =>
    cases b with
    | nil => simp at h1
    | cons y b =>
      rw [List.map_cons, List.map_cons, List.cons.injEq] at h1 h2
      rw [ih h1.2 h2.2, Prod.ext h1.1 h2.1]

end AsmParser
