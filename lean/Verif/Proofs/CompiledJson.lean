/-
Helper lemmas: the JSON document for the assembly code that a compiler writes.
-/
import Verif.Spec.CompiledJson
import Verif.Proofs.CompiledLeft
import Verif.Props.Settle
import Verif.Props.Columns

namespace AsmParser

attribute [local irreducible] Re.search Re.fullMatch

/-! ### Sections -/

theorem sectionName_blanks {bs r : Str} (h : Blanks bs) : sectionName (bs ++ r) = sectionName r := by
  have : (bs ++ r).dropWhile (fun c => c = 32 || c = 9) = r.dropWhile fun c => c = 32 || c = 9 := by
    induction bs with
    | nil => rfl
    | cons c bs ih =>
      rw [List.cons_append, List.dropWhile_cons_of_pos, ih fun d hd => h d (by simp [hd])]
      rcases h c (by simp) with rfl | rfl <;> decide
  unfold sectionName
  rw [this]

theorem switches_contains {t n : Str} (h : SwitchesTo t n) : ∃ w ∈ [b! ".cfi_endproc", b! ".data", b! ".text", b! ".section"], Contains t w := by
  obtain ⟨a, kw, r, hk, e, -⟩ := h
  simp only [List.mem_cons, List.not_mem_nil, or_false] at hk
  rcases hk with rfl | rfl | rfl
  · exact ⟨b! ".data", by decide, a, r, by rw [e]; simp⟩
  · exact ⟨b! ".text", by decide, a, r, by rw [e]; simp⟩
  · exact ⟨b! ".section", by decide, a, r, by rw [e]; simp⟩

/-- A dot after blanks. -/
theorem dot_after {bs r a r' : Str} (h : Blanks bs) (e : bs ++ r = a ++ c! '.' :: r') : bs.length ≤ a.length := by
  apply Classical.byContradiction
  intro hn
  have hlt : a.length < bs.length := by omega
  have h1 : (bs ++ r)[a.length]? = some bs[a.length] := by rw [List.getElem?_append_left hlt, List.getElem?_eq_getElem hlt]
  have h2 : (a ++ c! '.' :: r')[a.length]? = some c! '.' := by simp
  rw [e, h2] at h1
  have := h bs[a.length] (List.getElem_mem hlt)
  rw [← Option.some.inj h1] at this
  exact absurd this (by decide)

theorem switch_unique {t n m : Str} (h : SwitchesTo t n) (h' : SwitchesTo t m) : n = m := by
  obtain ⟨a, kw, r, hk, e, hmin, rfl⟩ := h
  obtain ⟨a', kw', r', hk', e', hmin', rfl⟩ := h'
  have l1 := hmin a' kw' r' hk' e'
  have l2 := hmin' a kw r hk e
  have he : a ++ (b! "." ++ kw ++ r) = a' ++ (b! "." ++ kw' ++ r') := by
    rw [← show t = a ++ (b! "." ++ kw ++ r) by rw [e]; simp, e']; simp
  obtain ⟨rfl, e2⟩ := List.append_inj he (by omega)
  have e3 : kw ++ r = kw' ++ r' := by simpa using e2
  simp only [List.mem_cons, List.not_mem_nil, or_false] at hk hk'
  rcases hk with rfl | rfl | rfl <;> rcases hk' with rfl | rfl | rfl
  all_goals first
    | rfl
    | (obtain rfl : r = r' := List.append_cancel_left e3
       rfl)
    | (exact absurd (congrArg List.head? e3) (by simp))

theorem block_switch {kw sep args : Str} {w : Str} (h : (CLine.block kw sep args).Usual) (hk : kw = c! '.' :: w)
    (hw : w ∈ [b! "data", b! "text", b! "section"]) :
    SwitchesTo (CLine.block kw sep args).text (if w = b! "section" then sectionName args else w) := by
  obtain ⟨⟨bs, bs', e, h1, h2, -⟩, -⟩ := h.shape_noTab (kw := kw) (sep := sep) (args := args) rfl h.2.1
  refine ⟨bs, w, bs' ++ args, hw, by rw [e, hk]; simp, ?_, by rw [sectionName_blanks h2]⟩
  intro a' kw' r' _ e'
  rw [e] at e'
  exact dot_after (r := kw ++ bs' ++ args) (r' := kw' ++ r') h1 (by simpa using e')

/-- What the line does to the section. -/
theorem cline_switch {x : CLine} (h : x.Wf) (ht : x.Tidy) (sect : Str) :
    (SwitchesTo x.text (x.sectionAfter sect)) ∨ (∀ n, ¬ SwitchesTo x.text n) ∧ x.sectionAfter sect = sect := by
  cases hb : x.isBlock with
  | false =>
    refine .inr ⟨fun n hn => ?_, by cases x <;> first | rfl | cases hb⟩
    obtain ⟨w, hw, hc⟩ := switches_contains hn
    have := h.ends hb w hw
    rw [(occurs_iff _ _).2 hc] at this
    cases this
  | true =>
    cases x with
    | block kw sep args =>
      have hk := h.usual.2.2
      simp only [List.mem_cons, List.not_mem_nil, or_false] at hk
      rcases hk with rfl | rfl | rfl | rfl
      · exact .inl (block_switch h.usual (w := b! "text") rfl (by decide))
      · exact .inl (block_switch h.usual (w := b! "data") rfl (by decide))
      · exact .inl (block_switch h.usual (w := b! "section") rfl (by decide))
      · refine .inr ⟨fun n hn => ?_, rfl⟩
        obtain rfl : args = [] := ht rfl
        obtain ⟨⟨bs, bs', e, h1, h2, -⟩, -⟩ := h.usual.shape_noTab (kw := b! ".cfi_endproc") (sep := sep) (args := []) rfl (by simp)
        obtain ⟨a, kw', r, hk', e', -⟩ := hn
        rw [e] at e'
        have hl := dot_after (r := b! ".cfi_endproc" ++ bs' ++ []) (r' := kw' ++ r) h1 (by simpa using e')
        have he : bs ++ (b! ".cfi_endproc" ++ bs') = a ++ (c! '.' :: (kw' ++ r)) := by simpa using e'
        have : ∃ z, a = bs ++ z ∧ b! ".cfi_endproc" ++ bs' = z ++ (c! '.' :: (kw' ++ r)) := by
          rcases List.append_eq_append_iff.1 he with ⟨z, h3, h4⟩ | ⟨z, h3, h4⟩
          · exact ⟨z, h3, h4⟩
          · obtain rfl : z = [] := by
              have := congrArg List.length h3
              rw [List.length_append] at this
              exact List.length_eq_zero_iff.1 (by omega)
            exact ⟨[], by simpa using h3.symm, by simpa using h4.symm⟩
        obtain ⟨a2, rfl, e2⟩ := this
        -- the dot is the first character, or a blank is a dot
        cases a2 with
        | nil =>
          have e3 : b! "cfi_endproc" ++ bs' = kw' ++ r := by simpa using e2
          simp only [List.mem_cons, List.not_mem_nil, or_false] at hk'
          rcases hk' with rfl | rfl | rfl <;> exact absurd (congrArg List.head? e3) (by simp)
        | cons c a2 =>
          have e3 : b! "cfi_endproc" ++ bs' = a2 ++ (c! '.' :: (kw' ++ r)) := by
            have := List.tail_eq_of_cons_eq (show c! '.' :: (b! "cfi_endproc" ++ bs') = c :: (a2 ++ (c! '.' :: (kw' ++ r))) by simpa using e2)
            exact this
          have hm : c! '.' ∈ b! "cfi_endproc" ++ bs' := by rw [e3]; simp
          rcases List.mem_append.1 hm with hm | hm
          · exact absurd hm (by decide)
          · exact absurd (h2 _ hm) (by decide)
    | _ => cases hb

theorem sectionAt_of {ys : List CLine} (h : ∀ x ∈ ys, x.Wf) (ht : ∀ x ∈ ys, x.Tidy) {name : Str}
    (hs : SectionAt (ys.map CLine.seen) name) : name = ys.foldl CLine.sectionAfter [] := by
  induction ys using snoc_induction generalizing name with
  | nil =>
    rcases hs with ⟨rfl, -⟩ | ⟨a, t, b, e, -⟩
    · rfl
    · exact absurd (congrArg List.length e) (by simp)
  | snoc ys x ih =>
    have hw := h x (by simp)
    have hx := cline_switch hw (ht x (by simp)) (ys.foldl CLine.sectionAfter [])
    have ih := fun {n} => ih (fun y hy => h y (by simp [hy])) (fun y hy => ht y (by simp [hy])) (name := n)
    rw [List.foldl_append, List.foldl_cons, List.foldl_nil]
    rw [List.map_append, List.map_cons, List.map_nil] at hs
    rcases hs with ⟨rfl, hs⟩ | ⟨a, t, b, e, hs, hb⟩
    · rcases hx with hx | ⟨-, hx⟩
      · exact (hs x.seen (by simp) _ hx).elim
      · rw [hx]
        exact ih (.inl ⟨rfl, fun t ht => hs t (by simp [ht])⟩)
    · rcases List.eq_nil_or_concat b with rfl | ⟨b', t', rfl⟩
      · have e := List.append_inj' e rfl
        have e2 : x.seen = t := by simpa using e.2
        subst e2
        rcases hx with hx | ⟨hn, -⟩
        · exact switch_unique hs hx
        · exact (hn _ hs).elim
      · rw [List.concat_eq_append] at e hb
        have e : ys.map CLine.seen ++ [x.seen] = (a ++ t :: b') ++ [t'] := by rw [e]; simp
        have e := List.append_inj' e rfl
        have e2 : x.seen = t' := by simpa using e.2
        subst e2
        rcases hx with hx | ⟨-, hx⟩
        · exact (hb x.seen (by simp) _ hx).elim
        · rw [hx]
          exact ih (.inr ⟨a, t, b', e.1, hs, fun y hy => hb y (by simp [hy])⟩)

/-! ### Positions of labels -/

/-- The line number `j` of the lines after a label gives it a position. -/
def Settles (rest : List CLine) (j : Nat) : Prop :=
  (∃ sep i n c m, rest[j]? = some (.loc sep i n c m)) ∧
    ∀ i x, i < j → rest[i]? = some x → x.shows = true → ∃ a nt, x = .label a nt ∧ internalName a = true

theorem settles_zero {x : CLine} {rest : List CLine} : Settles (x :: rest) 0 ↔ ∃ sep i n c m, x = .loc sep i n c m := by
  constructor
  · rintro ⟨⟨sep, i, n, c, e⟩, -⟩
    exact ⟨sep, i, n, c, by simpa using e⟩
  · rintro ⟨sep, i, n, c, m, rfl⟩
    exact ⟨⟨sep, i, n, c, m, rfl⟩, fun i x hi => by omega⟩

theorem settles_succ {x : CLine} {rest : List CLine} {j : Nat} : Settles (x :: rest) (j + 1) ↔
    (x.shows = true → ∃ a nt, x = .label a nt ∧ internalName a = true) ∧ Settles rest j := by
  constructor
  · rintro ⟨h1, h2⟩
    exact ⟨fun hs => h2 0 x (by omega) rfl hs, by simpa using h1, fun i y hi hy => h2 (i + 1) y (by omega) (by simpa using hy)⟩
  · rintro ⟨h0, h1, h2⟩
    refine ⟨by simpa using h1, fun i y hi hy => ?_⟩
    cases i with
    | zero => cases (show x = y by simpa using hy); exact h0
    | succ i => exact h2 i y (by omega) (by simpa using hy)

theorem settle_spec (rest : List CLine) (pos : Option (Nat × Nat × Nat)) :
    (settlePos pos rest = pos ∧ ∀ j, ¬ Settles rest j) ∨
    ∃ j sep i n c m, rest[j]? = some (.loc sep i n c m) ∧ Settles rest j ∧ settlePos pos rest = some (i, n, c.getD 0) ∧ ∀ j', Settles rest j' → j' ≤ j := by
  induction rest generalizing pos with
  | nil =>
    refine .inl ⟨rfl, ?_⟩
    rintro j ⟨⟨sep, i, n, c, m, e⟩, -⟩
    simp at e
  | cons x rest ih =>
    have through : ∀ pos', settlePos pos (x :: rest) = settlePos pos' rest → (x.shows = true → ∃ a nt, x = .label a nt ∧ internalName a = true) →
        (pos' = pos ∧ ¬ Settles (x :: rest) 0 ∨ ∃ sep i n c m, x = .loc sep i n c m ∧ pos' = some (i, n, c.getD 0)) →
        (settlePos pos (x :: rest) = pos ∧ ∀ j, ¬ Settles (x :: rest) j) ∨ ∃ j sep i n c m, (x :: rest)[j]? = some (.loc sep i n c m) ∧
          Settles (x :: rest) j ∧ settlePos pos (x :: rest) = some (i, n, c.getD 0) ∧ ∀ j', Settles (x :: rest) j' → j' ≤ j := by
      intro pos' e hs h0
      rw [e]
      rcases ih pos' with ⟨h1, h2⟩ | ⟨j, sep, i, n, c, m, h1, h2, h3, h4⟩
      · rcases h0 with ⟨rfl, h0⟩ | ⟨sep, i, n, c, m, rfl, rfl⟩
        · refine .inl ⟨h1, fun j hj => ?_⟩
          cases j with
          | zero => exact h0 hj
          | succ j => exact h2 j (settles_succ.1 hj).2
        · refine .inr ⟨0, sep, i, n, c, m, rfl, settles_zero.2 ⟨_, _, _, _, _, rfl⟩, h1, fun j' hj => ?_⟩
          cases j' with
          | zero => omega
          | succ j' => exact (h2 j' (settles_succ.1 hj).2).elim
      · refine .inr ⟨j + 1, sep, i, n, c, m, by simpa using h1, settles_succ.2 ⟨hs, h2⟩, h3, fun j' hj => ?_⟩
        cases j' with
        | zero => omega
        | succ j' => have := h4 j' (settles_succ.1 hj).2; omega
    have stop : settlePos pos (x :: rest) = pos → x.shows = true → (∀ a nt, x = .label a nt → internalName a = false) →
        (settlePos pos (x :: rest) = pos ∧ ∀ j, ¬ Settles (x :: rest) j) ∨ ∃ j sep i n c m, (x :: rest)[j]? = some (.loc sep i n c m) ∧
          Settles (x :: rest) j ∧ settlePos pos (x :: rest) = some (i, n, c.getD 0) ∧ ∀ j', Settles (x :: rest) j' → j' ≤ j := by
      intro e hs hn
      refine .inl ⟨e, fun j hj => ?_⟩
      cases j with
      | zero => obtain ⟨_, _, _, _, _, rfl⟩ := settles_zero.1 hj; cases hs
      | succ j =>
        obtain ⟨a, nt, rfl, ha⟩ := (settles_succ.1 hj).1 hs
        rw [hn a nt rfl] at ha
        cases ha
    have nz : (∀ sep i n c m, x ≠ .loc sep i n c m) → ¬ Settles (x :: rest) 0 := by
      intro h h0
      obtain ⟨_, _, _, _, _, e⟩ := settles_zero.1 h0
      exact h _ _ _ _ _ e
    cases x with
    | label a nt =>
      cases ha : internalName a with
      | true => exact through pos (by simp [settlePos, ha]) (fun _ => ⟨a, nt, rfl, ha⟩) (.inl ⟨rfl, nz (by simp)⟩)
      | false => exact stop (by simp [settlePos, ha]) rfl (by rintro b nt' ⟨⟩; exact ha)
    | instr => exact stop rfl rfl (by simp)
    | data => exact stop rfl rfl (by simp)
    | loc sep i n c m => exact through _ rfl (by intro h; cases h) (.inr ⟨_, _, _, _, _, rfl, rfl⟩)
    | file => exact through pos rfl (by intro h; cases h) (.inl ⟨rfl, nz (by simp)⟩)
    | block => exact through pos rfl (by intro h; cases h) (.inl ⟨rfl, nz (by simp)⟩)
    | directive => exact through pos rfl (by intro h; cases h) (.inl ⟨rfl, nz (by simp)⟩)
    | comment => exact through pos rfl (by intro h; cases h) (.inl ⟨rfl, nz (by simp)⟩)

theorem moves_labels {x : CLine} (h : x.Wf) : MovesLabels x.text ↔ ∃ sep i n c m, x = .loc sep i n c m := by
  constructor
  · rintro (⟨i, n, c, hl, hi⟩ | ⟨n, hl⟩)
    · obtain ⟨sep, i', n', c', m, rfl, -⟩ := loc_of h.usual hl hi
      exact ⟨sep, i', n', c', m, rfl⟩
    · have := no_other h.usual hl.kw (by decide) (.inr (.inr (.inr (.inr (.inl ⟨_, hl⟩)))))
      exact absurd this (by decide)
  · rintro ⟨sep, i, n, c, m, rfl⟩
    exact .inl ⟨i, n, (c.getD 0 : Nat), loc_line h.usual, by have := h.usual.2.2.1; omega⟩

theorem internalLabel_iff {x : CLine} (h : x.Wf) : x.seen.InternalLabel ↔ ∃ a nt, x = .label a nt ∧ internalName a = true := by
  constructor
  · rintro ⟨a, h1, h2⟩
    obtain ⟨nt, e⟩ := (defines_iff h).1 h1
    exact ⟨a, nt, e, internalName_iff.2 h2⟩
  · rintro ⟨a, nt, rfl, h2⟩
    exact ⟨a, label_defines h, internalName_iff.1 h2⟩

theorem gives_iff [Recognizers] {f : Filter} (hf : CompiledFilter f) {s : Str} {ys : List CLine} (hy : ∀ y ∈ ys, y.Wf)
    (hseen : seen f s = ys.map CLine.seen) (hg : (scan f s).gaps = []) (k j : Nat) :
    GivesPosition f s k (k + 1 + j) ↔ Settles (ys.drop (k + 1)) j := by
  have hf : UsualFilter { f with unusedLabels := false } := ⟨hf.directives, hf.comments, rfl, hf.library, hf.whitespace⟩
  unfold GivesPosition Reaches Settles
  rw [hseen, hg]
  constructor
  · rintro ⟨-, ⟨t, h1, h2, -⟩, -, h3⟩
    obtain ⟨y, h4, rfl, h5⟩ := at_map h1
    obtain ⟨sep, i, n, c, m, rfl⟩ := (moves_labels (hy y h5)).1 h2
    refine ⟨⟨sep, i, n, c, m, by rw [List.getElem?_drop]; exact h4⟩, fun i x hi hx hs => ?_⟩
    rw [List.getElem?_drop] at hx
    have hm := hy x (List.mem_of_getElem? hx)
    exact (internalLabel_iff hm).1 (h3 (k + 1 + i) x.seen (by omega) (by omega) (map_at hx) ((cline_kept hf hm).2 hs))
  · rintro ⟨⟨sep, i, n, c, m, h1⟩, h2⟩
    rw [List.getElem?_drop] at h1
    have hm := hy _ (List.mem_of_getElem? h1)
    refine ⟨by omega, ⟨_, map_at h1, (moves_labels hm).2 ⟨_, _, _, _, _, rfl⟩, ?_⟩, fun i _ _ => by simp, fun i t hki hij ht hk => ?_⟩
    · rw [seen_ends hm]; simp [CLine.isBlock]
    · obtain ⟨y, h4, rfl, h5⟩ := at_map ht
      refine (internalLabel_iff (hy y h5)).2 (h2 (i - (k + 1)) y (by omega) ?_ ((cline_kept hf (hy y h5)).1 hk))
      rw [List.getElem?_drop, show k + 1 + (i - (k + 1)) = i by omega]
      exact h4

/-- The position of a label, if line `m` is the one that decides. -/
theorem label_pos [Recognizers] {f : Filter} (hf : CompiledFilter f) {s : Str} {ys : List CLine} (hy : ∀ y ∈ ys, y.Wf)
    (hseen : seen f s = ys.map CLine.seen) (hg : (scan f s).gaps = []) {k m : Nat}
    (h : (m = k ∧ ∀ j, ¬ GivesPosition f s k j) ∨ GivesPosition f s k m ∧ ∀ j, GivesPosition f s k j → j ≤ m) :
    (ys.take (m + 1)).foldl CLine.moves none = settlePos ((ys.take (k + 1)).foldl CLine.moves none) (ys.drop (k + 1)) := by
  have key := gives_iff hf hy hseen hg k
  rcases settle_spec (ys.drop (k + 1)) ((ys.take (k + 1)).foldl CLine.moves none) with ⟨h1, h2⟩ | ⟨j, sep, i, n, c, q, h1, h2, h3, h4⟩
  · rcases h with ⟨rfl, -⟩ | ⟨h, -⟩
    · exact h1.symm
    · have := h.1
      rw [show m = k + 1 + (m - (k + 1)) by omega, key] at h
      exact (h2 _ h).elim
  · rcases h with ⟨-, h⟩ | ⟨h, hmax⟩
    · exact (h _ ((key j).2 h2)).elim
    · have a1 := hmax _ ((key j).2 h2)
      have a2 := h4 (m - (k + 1)) (by rw [← key, show k + 1 + (m - (k + 1)) = m by omega]; exact h)
      obtain rfl : m = k + 1 + j := by omega
      rw [h3]
      rw [List.getElem?_drop] at h1
      rw [List.take_succ, h1, List.foldl_append]
      rfl

/-! ### Rows -/

theorem rows_idx (f : Filter) (all xs : List CLine) (n : Nat) (pos : Option (Nat × Nat × Nat)) (sect : Str) (row : Nat → JVal)
    (h : ∀ j x, xs[j]? = some x → x.shows = true → row (n + j) =
      rowJson f all ((xs.take (j + 1)).foldl CLine.moves pos) ((xs.take (j + 1)).foldl CLine.sectionAfter sect) (xs.drop (j + 1)) x) :
    (shownIdx n xs).map row = rowsJson f all pos sect xs := by
  induction xs generalizing n pos sect with
  | nil => rfl
  | cons x xs ih =>
    unfold shownIdx rowsJson
    rw [List.map_append, ih (n + 1) (x.moves pos) (x.sectionAfter sect)]
    · congr 1
      cases hs : x.shows with
      | false => rfl
      | true =>
        have := h 0 x rfl hs
        simp only [Nat.add_zero, Nat.zero_add, List.take_succ_cons, List.take_zero, List.foldl_cons, List.foldl_nil, List.drop_succ_cons,
          List.drop_zero] at this
        simp [this]
    · intro j y hj hy
      have := h (j + 1) y (by simpa using hj) hy
      rw [show n + 1 + j = n + (j + 1) by omega, this, List.take_succ_cons, List.foldl_cons, List.foldl_cons, List.drop_succ_cons]

theorem settle_directives (pos : Option (Nat × Nat × Nat)) (xs : List CLine) :
    settlePos pos xs = settlePos pos (xs.filter fun x => !x.isDirective) := by
  induction xs generalizing pos with
  | nil => rfl
  | cons x xs ih =>
    cases x with
    | directive kw sep args => exact ih pos
    | label a nt =>
      rw [List.filter_cons_of_pos (by rfl)]
      simp only [settlePos]
      rw [ih]
    | loc sep i n c m => rw [List.filter_cons_of_pos (by rfl)]; exact ih _
    | instr => rw [List.filter_cons_of_pos (by rfl)]; rfl
    | data => rw [List.filter_cons_of_pos (by rfl)]; rfl
    | file => rw [List.filter_cons_of_pos (by rfl)]; exact ih _
    | block => rw [List.filter_cons_of_pos (by rfl)]; exact ih _
    | comment => rw [List.filter_cons_of_pos (by rfl)]; exact ih _

theorem rows_directives (f : Filter) (all xs : List CLine) (pos : Option (Nat × Nat × Nat)) (sect : Str) :
    rowsJson f all pos sect xs = rowsJson f all pos sect (xs.filter fun x => !x.isDirective) := by
  induction xs generalizing pos sect with
  | nil => rfl
  | cons x xs ih =>
    cases hd : x.isDirective with
    | true =>
      rw [List.filter_cons_of_neg (by simp [hd])]
      cases x with
      | directive kw sep args => exact ih pos sect
      | _ => cases hd
    | false =>
      rw [List.filter_cons_of_pos (by simp [hd])]
      unfold rowsJson
      rw [ih]
      congr 1
      split
      · unfold rowJson CLine.position
        cases x with
        | label a nt => simp only [settle_directives _ xs]
        | _ => rfl
      · rfl

theorem contains_directives {xs ys : List CLine} (h : ys.filter (fun x => !x.isDirective) = xs.filter fun x => !x.isDirective) (a : Str) :
    (labelNames ys).contains a = (labelNames xs).contains a := by
  have : ∀ zs : List CLine, labelNames zs = labelNames (zs.filter fun x => !x.isDirective) := by
    intro zs
    unfold labelNames
    rw [List.filterMap_filter]
    congr 1
    funext x
    cases x <;> rfl
  rw [this ys, this xs, h]

theorem rows_all (f : Filter) {a b : List CLine} (h : positionShown a = positionShown b) (hc : ∀ l, (labelNames a).contains l = (labelNames b).contains l)
    (xs : List CLine) (pos : Option (Nat × Nat × Nat)) (sect : Str) : rowsJson f a pos sect xs = rowsJson f b pos sect xs := by
  induction xs generalizing pos sect with
  | nil => rfl
  | cons x xs ih =>
    have e : ∀ p s r, rowJson f a p s r x = rowJson f b p s r x := by
      intro p s r
      unfold rowJson CLine.references CLine.position
      simp only [h, hc]
    unfold rowsJson
    rw [ih, e]

/-! ### Labels -/

theorem trimRight_solid {s bs : Str} (hs : ∀ c ∈ s.getLast?, ¬ Blank c) (hb : Blanks bs) : trimRight (s ++ bs) = s := by
  unfold trimRight
  rw [List.reverse_append, List.dropWhile_append_of_pos fun c hc => by simpa using hb c (List.mem_reverse.1 hc)]
  cases hr : s.reverse with
  | nil => rw [List.reverse_eq_nil_iff.1 hr]; rfl
  | cons c r =>
    have e : s = r.reverse ++ [c] := by rw [← List.reverse_reverse (as := s), hr]; simp
    rw [List.dropWhile_cons_of_neg (by simpa using hs c (by rw [e]; simp)), e]
    simp

theorem label_counted {name nt : Str} (h : (CLine.label name nt).Usual) : counted (CLine.label name nt).text = name ++ b! ":" := by
  obtain ⟨r, e, hr⟩ := label_text h
  have hb : ∀ c ∈ name ++ b! ":", ¬ Blank c := by
    intro c hc
    rcases List.mem_append.1 hc with hc | hc
    · exact symbolChar_solid (h.2.1 c hc)
    · rw [List.mem_singleton.1 hc]; decide
  have hc : ∀ c ∈ name ++ b! ":", ¬ CommentChar c := by
    intro c hc
    rcases List.mem_append.1 hc with hc | hc
    · exact byte_forall (P := fun c => SymbolChar c → ¬ CommentChar c) (by unfold SymbolChar Letter Digit CommentChar; decide +kernel) (h.2.1 c hc)
    · cases List.mem_singleton.1 hc; unfold CommentChar; decide
  rw [e]
  have hne : name ++ b! ":" ≠ [] := by simp
  have hlast : ∀ c ∈ (name ++ b! ":").getLast?, ¬ Blank c := fun c hm => hb c (List.mem_of_getLast? hm)
  generalize name ++ b! ":" = t at *
  unfold counted
  rcases hr with rfl | ⟨bs, u, rfl, h1⟩
  · have e1 : (t ++ []).takeWhile (fun c => decide (¬ CommentChar c)) = t := by
      rw [List.takeWhile_append_of_pos fun c hm => by simpa using hc c hm]
      simp
    have e2 : (t ++ []).reverse.dropWhile (fun c => decide (¬ Blank c)) = [] := by
      rw [List.append_nil]
      have := List.dropWhile_append_of_pos (p := fun c => decide (¬ Blank c)) (l₁ := t.reverse) (l₂ := [])
        fun c hm => by simpa using hb c (List.mem_reverse.1 hm)
      simpa using this
    simp only [List.append_nil] at e1 e2 ⊢
    simp only [e1, e2, Nat.lt_irrefl, if_false, List.reverse_nil]
    rfl
  · have e1 : (t ++ (bs ++ c! '#' :: u)).takeWhile (fun c => decide (¬ CommentChar c)) = t ++ bs := by
      rw [List.takeWhile_append_of_pos fun c hm => by simpa using hc c hm, List.takeWhile_append_of_pos, List.takeWhile_cons_of_neg,
        List.append_nil]
      · unfold CommentChar; decide
      · intro c hm
        rcases h1 c hm with rfl | rfl <;> unfold CommentChar <;> decide
    have hnb : ¬ Blanks (t ++ bs) := by
      obtain ⟨c, w, rfl⟩ := List.exists_cons_of_ne_nil hne
      exact fun hh => hb c (by simp) (hh c (by simp))
    simp only [e1]
    rw [if_pos (by simp), if_neg hnb, trimRight_solid hlast h1]

theorem label_opcode {name nt : Str} (h : (CLine.label name nt).Wf) : Instruction false (CLine.label name nt).text ↔ positioned name = true := by
  unfold Instruction
  rw [label_counted h.usual]
  have hc : Contains (name ++ b! ":") b! ".inst" ↔ occurs b! ".inst" name = true := by
    rw [occurs_iff]
    constructor
    · rintro ⟨a, b, e⟩
      rcases List.eq_nil_or_concat b with rfl | ⟨b', d, rfl⟩
      · rw [List.append_nil] at e
        have := congrArg List.getLast? e
        simp at this
      · rw [List.concat_eq_append, ← List.append_assoc] at e
        exact ⟨a, b', (List.append_inj' e rfl).1⟩
    · rintro ⟨a, b, e⟩
      exact ⟨a, b ++ b! ":", by rw [e]; simp⟩
  have hl : BeginsWithLetter (name ++ b! ":") ↔ name.head?.any (fun c => decide (Letter c)) = true := by
    obtain ⟨c, w, rfl⟩ := List.exists_cons_of_ne_nil h.usual.1
    have hb := symbolChar_solid (h.usual.2.1 c (by simp))
    simp only [List.head?_cons, Option.any_some, decide_eq_true_eq]
    constructor
    · rintro ⟨bs, d, r, h1, h2, e⟩
      rw [(blanks_first (bs := []) (by simp [Blanks]) h1 hb (symbolChar_solid (.inl h2)) e).1]
      exact h2
    · intro hl
      exact ⟨[], c, w ++ b! ":", by simp [Blanks], hl, by simp⟩
  have hn : ∀ l, ¬ AssignsOnly (name ++ b! ":") l := by
    rintro l ⟨bs, bs', c, t, -, -, -, -, -, -, e⟩
    have := congrArg List.getLast? e
    simp at this
  unfold positioned
  rw [hc, Bool.or_eq_true, ← hl]
  simp only [Bool.false_eq_true, if_false]
  constructor
  · rintro (h | ⟨-, h⟩)
    · exact .inr h
    · exact .inl h
  · rintro (h | h)
    · exact .inr ⟨hn, h⟩
    · exact .inl h

theorem numbered_labels (ls : List TLine) (xs : List CLine) (n : Nat)
    (h : ls.map (fun l => (l.isLabel, l.label)) = xs.map fun x => match x with | .label a _ => (true, a) | _ => (false, [])) :
    (numberedLabels n ls).map (fun d => (d.1, JVal.num d.2)) = labelsJson n xs := by
  induction xs generalizing ls n with
  | nil =>
    cases ls with
    | nil => rfl
    | cons l ls => simp at h
  | cons x xs ih =>
    cases ls with
    | nil => simp at h
    | cons l ls =>
      simp only [List.map_cons, List.cons.injEq] at h
      have ih := ih ls (n + 1) h.2
      unfold numberedLabels at ih ⊢
      rw [List.zipIdx_cons, List.filterMap_cons]
      cases x with
      | label a nt =>
        have h1 := Prod.mk.inj h.1
        simp only [h1.1, if_true, List.map_cons]
        rw [ih, h1.2]
        rfl
      | _ =>
        have h1 := Prod.mk.inj h.1
        simp only [h1.1, Bool.false_eq_true, if_false]
        exact ih

/-! ### The JSON of a line -/

theorem position_json (mask : Bool) (l : TLine) : positionJson mask l.toAsm =
    sourceJson mask (if l.isLabel = true → l.hasOpcode = true then l.shownSource else none) := by
  unfold positionJson
  by_cases hp : HasPosition l.toAsm
  · have h1 : l.source.line > 0 := hp.1
    have h2 : l.isLabel = true → l.hasOpcode = true := hp.2
    rw [if_pos hp, if_pos h2]
    unfold TLine.shownSource
    rw [if_pos h1]
    rfl
  · rw [if_neg hp]
    by_cases h2 : l.isLabel = true → l.hasOpcode = true
    · rw [if_pos h2]
      unfold TLine.shownSource
      rw [if_neg (show ¬ l.source.line > 0 from fun h1 => hp ⟨h1, h2⟩)]
      rfl
    · rw [if_neg h2]
      rfl

theorem line_json (c m : Bool) (l : TLine) : lineJson c m l.toAsm =
    .obj ([(b! "labels", .arr (l.labels.map refJson)),
        (b! "source", sourceJson m (if l.isLabel = true → l.hasOpcode = true then l.shownSource else none))] ++
      (if l.sect.s = [] ∨ c = true then [] else [(b! "section", .str l.sect.s)]) ++ [(b! "text", .str l.text)]) := by
  unfold lineJson
  rw [position_json]
  have : optNum b! "address" (if c = true ∧ l.toAsm.isLabel = true then none else l.toAsm.address) = [] := by
    have : l.toAsm.address = none := rfl
    rw [this]
    split <;> rfl
  rw [this]
  have : l.toAsm.opcodes = [] := rfl
  rw [if_pos this]
  rfl

/-! ### One line -/

/-- A line of the result that comes from line `k` of the program. -/
theorem compiled_row [Recognizers] {f : Filter} (hf : CompiledFilter f) {s : Str} {ys : List CLine} (hy : ∀ y ∈ ys, y.Wf) (hyt : ∀ y ∈ ys, y.Tidy)
    (hseen : seen f s = ys.map CLine.seen) (hgaps : (scan f s).gaps = []) {defined defined' : Str → Bool}
    (hD : ∀ a, defined' a = (labelNames ys).contains a) {l : TLine} {k m : Nat} {y : CLine} (h4 : ys[k]? = some y) (hshow : y.shows = true)
    (h3 : Describes (ys.map CLine.seen) defined k y.seen l) (hsect0 : SectionAt ((seen f s).take (k + 1)) l.sect.s)
    (g1 : l.isLabel = false → m = k)
    (g2 : l.isLabel = true → (m = k ∧ ∀ j, ¬ GivesPosition f s k j) ∨ GivesPosition f s k m ∧ ∀ j, GivesPosition f s k j → j ≤ m)
    {q} (g3 : PositionAt ((seen f s).take (m + 1)) q) (g4 : ShownAs (seen f s) q l.shownSource)
    (hcol : l.labels = if l.isLabel = false ∧ (l.hasOpcode = true ∨ l.isData = true) then
      (referencesIn l.text).filter (fun r => defined' r.name) else []) :
    ((l.isLabel, l.label) = match y with | .label a _ => (true, a) | _ => (false, [])) ∧
      (decide (l.isLabel = false ∧ (l.hasOpcode = true ∨ l.isData = true)), l.text) = (!y.isLabel, y.text) ∧
      lineJson f.compatmode (!f.dontMaskFilenames) l.toAsm =
        rowJson f ys ((ys.take (k + 1)).foldl CLine.moves none) ((ys.take (k + 1)).foldl CLine.sectionAfter []) (ys.drop (k + 1)) y := by
  have h5 : y ∈ ys := List.mem_of_getElem? h4
  have hyw := hy y h5
  have hsect : l.sect.s = (ys.take (k + 1)).foldl CLine.sectionAfter [] := by
    rw [hseen, ← List.map_take] at hsect0
    exact sectionAt_of (fun x hx => hy x (List.take_subset _ _ hx)) (fun x hx => hyt x (List.take_subset _ _ hx)) hsect0
  have hpos : l.shownSource = positionShown ys ((ys.take (m + 1)).foldl CLine.moves none) := by
    rw [hseen, ← List.map_take] at g3
    rw [hseen, positionAt_of g3 _ rfl fun x hx => hy x (List.take_subset _ _ hx)] at g4
    exact shownAs_of hy g4
  have hop : l.hasOpcode = true ↔ Instruction false y.text := by
    have hh : ¬ y.seen.Header := fun hh => not_cuda hyw hh.2
    rw [h3.opcode]
    constructor
    · rintro (⟨a, -⟩ | ⟨-, a⟩)
      · exact (hh a).elim
      · exact a
    · exact fun a => .inr ⟨hh, a⟩
  have htext : l.text = y.text := h3.text
  have hmark : decide (l.isLabel = false ∧ (l.hasOpcode = true ∨ l.isData = true)) = !y.isLabel := by
    rcases h3.label with ⟨a, b⟩ | ⟨a, -, b⟩
    · obtain ⟨nt, e⟩ := (defines_iff hyw).1 b
      rw [e, a]
      simp [CLine.isLabel]
    · have : l.hasOpcode = true ∨ l.isData = true := by
        cases y with
        | label n nt => exact (b n (label_defines hyw)).elim
        | instr o sep args => exact .inl (hop.2 (instr_seen hyw (hyt _ h5)).2)
        | data kw sep args =>
          obtain ⟨d1, d2, d3⟩ := (data_seen hyw).2 rfl
          exact .inr (h3.data.2 ⟨d2, d3⟩)
        | _ => cases hshow
      rw [decide_eq_true ⟨a, this⟩]
      cases y with
      | label n nt => exact (b n (label_defines hyw)).elim
      | _ => rfl
  refine ⟨?_, by rw [hmark, htext], ?_⟩
  · show (l.isLabel, l.label) = _
    rcases h3.label with ⟨a, b⟩ | ⟨a, a', b⟩
    · obtain ⟨nt, rfl⟩ := (defines_iff hyw).1 b
      rw [a]
    · rw [a, a']
      cases y with
      | label n nt => exact (b n (label_defines hyw)).elim
      | _ => rfl
  · rw [line_json]
    show JVal.obj _ = rowJson f ys ((ys.take (k + 1)).foldl CLine.moves none) ((ys.take (k + 1)).foldl CLine.sectionAfter []) (ys.drop (k + 1)) y
    unfold rowJson
    rw [hsect, htext]
    have hrefs : l.labels = y.references ys := by
      rw [hcol, htext]
      have hfun : (fun r : AsmLabel => defined' r.name) = fun r => (labelNames ys).contains r.name := funext fun r => hD r.name
      rw [hfun]
      cases hl : y.isLabel with
      | true =>
        rw [hl] at hmark
        rw [if_neg (by simpa using hmark)]
        cases y with
        | label n nt => rfl
        | _ => cases hl
      | false =>
        rw [hl] at hmark
        rw [if_pos (by simpa using hmark)]
        cases y with
        | label n nt => cases hl
        | _ => rfl
    have hsource : (if l.isLabel = true → l.hasOpcode = true then l.shownSource else none) =
        y.position ys ((ys.take (k + 1)).foldl CLine.moves none) (ys.drop (k + 1)) := by
      rcases h3.label with ⟨a, b⟩ | ⟨a, -, b⟩
      · obtain ⟨nt, e⟩ := (defines_iff hyw).1 b
        have hm := label_pos hf hy hseen hgaps (g2 a)
        rw [hpos, hm]
        have ho := hop
        rw [e] at ho hyw
        rw [label_opcode hyw] at ho
        rw [e]
        show _ = if positioned l.label = true then _ else _
        cases hp : positioned l.label with
        | true => rw [if_pos fun _ => ho.2 hp, if_pos rfl]
        | false =>
          rw [if_neg, if_neg (by simp)]
          intro hn
          rw [ho.1 (hn a)] at hp
          cases hp
      · rw [if_pos (by rw [a]; simp), hpos, g1 a]
        cases y with
        | label n nt => exact (b n (label_defines hyw)).elim
        | _ => rfl
    rw [hrefs, hsource]

/-- All lines of the program are counted. -/
theorem compiled_total {L : Locale} {f : Filter} {xs : List CLine} (hx : ∀ x ∈ xs, x.Wf) {p : TParser}
    (h : TextResult L f (unlines (xs.map CLine.render)) p) : p.totalLines = xs.length := by
  have hlines : inputLines (unlines (xs.map CLine.render)) = xs.map CLine.render := by
    refine inputLines_unlines _ fun l hl => ?_
    obtain ⟨x, hm, rfl⟩ := List.mem_map.1 hl
    exact (hx x hm).usual.noNewline
  rw [(count_result h).1]
  rcases (count_read L f (unlines (xs.map CLine.render))).2 with e | ⟨-, l, h1, h2⟩
  · rw [e, hlines, List.length_map]
  · rw [hlines] at h1
    obtain ⟨x, hm, rfl⟩ := List.mem_map.1 (List.mem_of_getLast? h1)
    obtain ⟨bs, c, r, e, -, h'⟩ := render_first (hx x hm).usual
    have hc := h2 c (by rw [e]; simp)
    rcases h' with ⟨m, t, -, hm, -⟩ | ⟨-, hsym⟩
    · exact absurd hc hm.not.1
    · exact absurd hc (symbolChar_solid hsym)

end AsmParser
