/-
Helper lemmas: the source positions in the assembly code that a compiler writes.
-/
import Verif.Proofs.Compiled

namespace AsmParser

attribute [local irreducible] Re.search Re.fullMatch

/-! ### Positions -/

theorem seen_ends {x : CLine} (h : x.Wf) : x.seen.Ends ↔ x.isBlock = true := by
  unfold Seen.Ends
  rw [show x.seen.text = x.text from rfl, cline_ends h]
  simp [CLine.seen]

theorem loc_of {x : CLine} (h : x.Usual) {i n c : Int} (hl : LocLine x.text i n c) (hi : i ≠ 0) :
    ∃ sep i' n' c' m, x = .loc sep i' n' c' m ∧ i = (i' : Nat) ∧ n = (n' : Nat) ∧ c = (c'.getD 0 : Nat) := by
  have hinf := (cline_info h).1 (.inr (.inl ⟨i, n, c, hl, hi⟩))
  cases x with
  | loc sep i' n' c' m =>
    have := locLine_unique hl (loc_line h)
    simp only [Prod.mk.injEq] at this
    exact ⟨sep, i', n', c', m, rfl, this.1, this.2.1, this.2.2⟩
  | file sep j d name m =>
    have := hl.kw.eq (file_line h).kw (by decide) (by decide)
    exact absurd this (by decide)
  | _ => cases hinf

theorem file_of {x : CLine} (h : x.Usual) {i : Int} {name : Str} (hl : FileDirective x.text i name) :
    ∃ sep i' d nm m, x = .file sep i' d nm m ∧ i = (i' : Nat) ∧ name = fileName d nm := by
  have hinf := (cline_info h).1 (.inl ⟨i, name, hl⟩)
  cases x with
  | file sep j d nm m =>
    obtain ⟨rfl, rfl⟩ := hl.unique (file_line h)
    exact ⟨sep, j, d, nm, m, rfl, rfl, rfl⟩
  | loc sep i' n' c' m =>
    have := hl.kw.eq (loc_line h).kw (by decide) (by decide)
    exact absurd this (by decide)
  | _ => cases hinf

/-- No other kind of source information. -/
theorem no_other {x : CLine} (h : x.Usual) {kw : Str} (hk : Kw x.text kw) (hw : KwWord kw) (hi : SourceInfo x.text) : kw = b! ".file" ∨ kw = b! ".loc" := by
  have hinf := (cline_info h).1 hi
  cases x with
  | file sep j d name m => exact .inl (hk.eq (file_line h).kw hw (by decide))
  | loc sep i' n' c' m => exact .inr (hk.eq (loc_line h).kw hw (by decide))
  | _ => cases hinf

def toPos (q : Nat × Nat × Nat) : Pos := .indexed q.1 q.2.1 q.2.2

theorem setsPos_of {ts : List Seen} {x : CLine} (h : x.Wf) {q : Option Pos} (hs : SetsPos ts x.seen q) :
    x.isBlock = true ∧ q = none ∨ ∃ sep i n c m, x = .loc sep i n c m ∧ q = some (.indexed i n (c.getD 0 : Nat)) := by
  cases hs with
  | ends he => exact .inl ⟨(seen_ends h).1 he, rfl⟩
  | loc _ hl hi =>
    obtain ⟨sep, i', n', c', m, rfl, rfl, rfl, rfl⟩ := loc_of h.usual hl hi
    exact .inr ⟨sep, i', n', c', m, rfl, rfl⟩
  | stab _ hl =>
    have hl : StabDirective x.text _ _ := hl
    have := no_other h.usual hl.kw (by decide) (.inr (.inr (.inl ⟨_, _, hl⟩)))
    exact absurd this (by decide)
  | stabEnd _ hl _ =>
    have hl : StabDirective x.text _ _ := hl
    have := no_other h.usual hl.kw (by decide) (.inr (.inr (.inl ⟨_, _, hl⟩)))
    exact absurd this (by decide)
  | dbg _ hl =>
    have hl : DbgDirective x.text _ _ := hl
    have := no_other h.usual hl.kw (by decide) (.inr (.inr (.inr (.inl (by
      obtain ⟨bs, q, bs', a, -, -, -, -, -, hi⟩ := hl
      exact ⟨_, by simpa only [List.append_assoc, List.cons_append, List.nil_append] using hi⟩)))))
    exact absurd this (by decide)
  | d2 _ hl _ =>
    have hl : D2Line x.text _ := hl
    have := no_other h.usual hl.kw (by decide) (.inr (.inr (.inr (.inr (.inl ⟨_, hl⟩)))))
    exact absurd this (by decide)

theorem map_snoc {ys : List CLine} {ts : List Seen} {t : Seen} (e : ys.map CLine.seen = ts ++ [t]) :
    ∃ zs x, ys = zs ++ [x] ∧ zs.map CLine.seen = ts ∧ x.seen = t := by
  obtain ⟨zs, l, rfl, e1, e2⟩ := List.map_eq_append_iff.1 e
  obtain ⟨x, r, rfl, e3, e4⟩ := List.map_eq_cons_iff.1 e2
  cases List.map_eq_nil_iff.1 e4
  exact ⟨zs, x, rfl, e1, e3⟩

theorem positionAt_of {ts : List Seen} {q : Option Pos} (hp : PositionAt ts q) : ∀ ys : List CLine, ys.map CLine.seen = ts →
    (∀ x ∈ ys, x.Wf) → q = (ys.foldl CLine.moves none).map toPos := by
  induction hp with
  | start =>
    intro ys e _
    rw [List.map_eq_nil_iff.1 e]
    rfl
  | set hs =>
    intro ys e h
    obtain ⟨zs, x, rfl, e1, rfl⟩ := map_snoc e
    rw [List.foldl_append]
    rcases setsPos_of (h x (by simp)) hs with ⟨hb, rfl⟩ | ⟨sep, i, n, c, m, rfl, rfl⟩
    · cases x with
      | block kw sep args => rfl
      | _ => cases hb
    · rfl
  | @keep ts t q hp hn ih =>
    intro ys e h
    obtain ⟨zs, x, rfl, e1, rfl⟩ := map_snoc e
    rw [ih zs e1 (fun x hx => h x (by simp [hx])), List.foldl_append]
    have hx := h x (by simp)
    have : ∀ pos, CLine.moves pos x = pos := by
      intro pos
      cases x with
      | block kw sep args => exact (hn none (.ends ((seen_ends hx).2 rfl))).elim
      | loc sep i n c m =>
        have he : ¬ (CLine.loc sep i n c m).seen.Ends := by rw [seen_ends hx]; simp [CLine.isBlock]
        exact (hn _ (.loc he (loc_line hx.usual) (by have := hx.usual.2.2.1; omega))).elim
      | _ => rfl
    rw [List.foldl_cons, List.foldl_nil, this]

/-! ### Files -/

theorem fileNamed_of {ys : List CLine} (h : ∀ x ∈ ys, x.Wf) {i : Nat} {name : Str} :
    FileNamed (ys.map CLine.seen) i name ↔ ys.reverse.findSome? (CLine.names i) = some name := by
  induction ys using snoc_induction with
  | nil =>
    constructor
    · rintro ⟨a, t, b, e, -⟩
      simp at e
    · intro h; cases h
  | snoc ys x ih =>
    have ih := ih fun y hy => h y (by simp [hy])
    have hx := h x (by simp)
    rw [List.reverse_append, List.reverse_singleton, List.singleton_append, List.findSome?_cons]
    by_cases hf : ∃ sep d nm m, x = .file sep i d nm m
    · obtain ⟨sep, d, nm, m, rfl⟩ := hf
      have he : ¬ (CLine.file sep i d nm m).seen.Ends := by rw [seen_ends hx]; simp [CLine.isBlock]
      simp only [CLine.names, if_true, Option.some.injEq]
      constructor
      · rintro ⟨a, t, b, e, k1, k2, k3⟩
        rw [List.map_append, List.map_cons, List.map_nil] at e
        rcases List.append_eq_append_iff.1 e with ⟨y, e1, e2⟩ | ⟨y, e1, e2⟩
        · cases y with
          | nil =>
            simp only [List.nil_append, List.cons.injEq] at e2
            rw [← e2.1] at k2
            exact ((file_line hx.usual).unique k2).2
          | cons z y => simp at e2
        · cases y with
          | nil =>
            simp only [List.nil_append, List.cons.injEq] at e2
            rw [e2.1] at k2
            exact ((file_line hx.usual).unique k2).2
          | cons z y =>
            simp only [List.cons_append, List.cons.injEq] at e2
            refine (k3 (CLine.file sep i d nm m).seen (by rw [e2.2]; simp) he _ (file_line hx.usual)).elim
      · rintro rfl
        exact ⟨ys.map CLine.seen, _, [], by simp, he, file_line hx.usual, by simp⟩
    · have hn : CLine.names i x = none := by
        cases x with
        | file sep j d nm m =>
          exact if_neg (fun e => hf ⟨sep, d, nm, m, by rw [e]⟩)
        | _ => rfl
      have hno : ∀ nm, ¬ FileDirective x.seen.text i nm := by
        intro nm hd
        obtain ⟨sep, j, d, nm', m, rfl, hj, -⟩ := file_of hx.usual hd
        obtain rfl : i = j := by omega
        exact hf ⟨sep, d, nm', m, rfl⟩
      rw [hn]
      simp only
      rw [← ih]
      constructor
      · rintro ⟨a, t, b, e, k1, k2, k3⟩
        rw [List.map_append, List.map_cons, List.map_nil] at e
        rcases List.append_eq_append_iff.1 e with ⟨y, e1, e2⟩ | ⟨y, e1, e2⟩
        · cases y with
          | nil =>
            simp only [List.nil_append, List.cons.injEq] at e2
            rw [← e2.1] at k2
            exact (hno _ k2).elim
          | cons z y => simp at e2
        · cases y with
          | nil =>
            simp only [List.nil_append, List.cons.injEq] at e2
            rw [e2.1] at k2
            exact (hno _ k2).elim
          | cons z y =>
            simp only [List.cons_append, List.cons.injEq] at e2
            obtain ⟨rfl, rfl⟩ := e2
            exact ⟨a, t, y, e1, k1, k2, fun u hu => k3 u (by simp [hu])⟩
      · rintro ⟨a, t, b, e, k1, k2, k3⟩
        refine ⟨a, t, b ++ [x.seen], by rw [List.map_append, e]; simp, k1, k2, ?_⟩
        intro u hu he nm
        rcases List.mem_append.1 hu with hu | hu
        · exact k3 u hu he nm
        · rw [List.mem_singleton.1 hu]; exact hno nm

theorem shownAs_of {ys : List CLine} (h : ∀ x ∈ ys, x.Wf) {q : Option (Nat × Nat × Nat)} {r : Option (Str × Int × Int)}
    (hs : ShownAs (ys.map CLine.seen) (q.map toPos) r) : r = positionShown ys q := by
  cases q with
  | none => cases hs; rfl
  | some q =>
    obtain ⟨i, n, c⟩ := q
    show r = if n = 0 then none else _
    cases hs with
    | file hf hn =>
      rw [if_neg (by simp at hn; omega), (fileNamed_of h).1 hf]
      rfl
    | line0 hn => rw [if_pos (by simp at hn; omega)]
    | undefined hu =>
      split
      · rfl
      · cases hh : ys.reverse.findSome? (CLine.names i) with
        | none => rfl
        | some name => exact (hu name ((fileNamed_of h).2 hh)).elim

end AsmParser
