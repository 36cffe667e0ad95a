/-
Lemmas for C97: what is recognized in a line does not depend on the number of blanks between its words.
-/
import Verif.Proofs.OneBlank
import Verif.Proofs.Recognize

namespace AsmParser

attribute [local irreducible] Re.search Re.fullMatch

theorem Edge.solid {x y : Str} (h : ∀ c ∈ x, ¬ Blank c) : Edge x y := .inl fun d hd => h d (List.mem_of_getLast? hd)

theorem symbolChar_solid {c : Byte} (h : SymbolChar c) : ¬ Blank c := (labelChar_other (.inl h)).1

theorem Resp.contains {u v w : Str} (h : Resp u v) (hne : w ≠ []) (hw : ∀ c ∈ w, ¬ Blank c) (hc : Contains u w) : Contains v w := by
  obtain ⟨a, b, rfl⟩ := hc
  rw [List.append_assoc] at h
  obtain ⟨c, w', rfl⟩ := List.exists_cons_of_ne_nil hne
  obtain ⟨a', y, rfl, -, h2⟩ := h.split rfl (.inr fun d hd => hw d (by simp at hd; simp [hd]))
  obtain ⟨b', rfl, -⟩ := h2.word hw
  exact ⟨a', b', by simp⟩

theorem Resp.contains_iff {u v w : Str} (h : Resp u v) (hne : w ≠ []) (hw : ∀ c ∈ w, ¬ Blank c) : Contains u w ↔ Contains v w :=
  ⟨h.contains hne hw, h.symm.contains hne hw⟩

/-- A line of blanks, a word and more. -/
theorem Resp.keyword {u v bs kw r : Str} (h : Resp u v) (e : u = bs ++ kw ++ r) (hb : Blanks bs) (hne : kw ≠ []) (hk : ∀ c ∈ kw, ¬ Blank c) :
    ∃ bs' r', v = bs' ++ kw ++ r' ∧ Blanks bs' ∧ (bs = [] ↔ bs' = []) ∧ Resp r r' := by
  subst e
  rw [List.append_assoc] at h
  obtain ⟨c, w', rfl⟩ := List.exists_cons_of_ne_nil hne
  obtain ⟨bs', y, rfl, h1, h2, h3⟩ := h.run hb (fun d hd => hk d (by simp at hd; simp [hd]))
  obtain ⟨r', rfl, h4⟩ := h3.word hk
  exact ⟨bs', r', by simp, h1, h2, h4⟩

theorem Resp.instructs {u v kw arg : Str} (h : Resp u v) (hi : Instructs u kw arg) (hne : kw ≠ []) (hk : ∀ c ∈ kw, ¬ Blank c)
    (ha : ∀ d ∈ arg.head?, ¬ Blank d) : ∃ arg', Instructs v kw arg' ∧ Resp arg arg' := by
  obtain ⟨bs, bs', h1, h2, h3, e⟩ := hi
  obtain ⟨cs, r, rfl, g1, -, g2⟩ := h.keyword (by rw [List.append_assoc] at e; exact e) h1 hne hk
  obtain ⟨cs', arg', rfl, g3, g4, g5⟩ := g2.run h3 ha
  exact ⟨arg', ⟨cs, cs', g1, fun hh => h2 (g4.2 hh), g3, by simp⟩, g5⟩

theorem Resp.startsWith {u v : Str} {kws : List Str} (h : Resp u v) (hk : ∀ kw ∈ kws, kw ≠ [] ∧ ∀ c ∈ kw, ¬ Blank c)
    (hs : StartsWithOneOf kws u) : StartsWithOneOf kws v := by
  obtain ⟨bs, kw, r, h1, h2, e⟩ := hs
  obtain ⟨bs', r', rfl, g1, -, -⟩ := h.keyword e h1 (hk kw h2).1 (hk kw h2).2
  exact ⟨bs', kw, r', g1, h2, rfl⟩

theorem Resp.declares {u v l : Str} {kws : List Str} (h : Resp u v) (hk : ∀ kw ∈ kws, kw ≠ [] ∧ ∀ c ∈ kw, ¬ Blank c)
    (hs : DeclaresSymbol kws u l) : DeclaresSymbol kws v l := by
  obtain ⟨bs, kw, bs', r, h1, h2, h3, h4, h5, e⟩ := hs
  have hl : ∀ c ∈ l, ¬ Blank c := by
    obtain ⟨c, t, rfl, hc, ht⟩ := h4
    intro d hd
    rcases List.mem_cons.1 hd with rfl | hd
    · exact symbolChar_solid (by rcases hc with hc | hc | hc
                                 · exact .inl hc
                                 · exact .inr (.inr (.inl hc))
                                 · exact .inr (.inr (.inr (.inl hc))))
    · exact symbolChar_solid (ht d hd)
  have hne : l ≠ [] := by obtain ⟨c, t, rfl, -⟩ := h4; simp
  obtain ⟨cs, x, rfl, g1, -, g2⟩ := h.keyword (r := bs' ++ l ++ r) (by rw [e]; simp) h1 (hk kw h2).1 (hk kw h2).2
  obtain ⟨cs', r', rfl, g3, -, g4⟩ := g2.keyword rfl h3 hne hl
  refine ⟨cs, kw, cs', r', g1, h2, g3, h4, ?_, by simp⟩
  intro d hd hs
  have := g4.symm.head (fun x hx hb => by
    rw [hd] at hx; cases hx; exact symbolChar_solid hs hb)
  exact h5 d (by rw [← this]; exact hd) hs

theorem Resp.assignsLabel {u v l : Str} (h : Resp u v) (hs : AssignsLabel u l) : AssignsLabel v l := by
  obtain ⟨c, t, bs, r, rfl, h1, h2, h3, h4, rfl⟩ := hs
  have hl : ∀ d ∈ c :: t, ¬ Blank d := by
    intro d hd
    rcases List.mem_cons.1 hd with rfl | hd
    · exact symbolChar_solid h1
    · refine symbolChar_solid ?_
      rcases h2 d hd with hh | hh | hh
      · exact .inl hh
      · exact .inr (.inl hh)
      · exact .inr (.inr (.inl hh))
  rw [List.append_assoc] at h
  obtain ⟨y, rfl, g⟩ := h.word hl
  obtain ⟨bs', y', rfl, g1, g2, g3⟩ := g.run h4 (by intro d hd; cases hd; decide)
  obtain ⟨r', rfl, -⟩ := Resp.word (w := b! "=") g3 (by decide)
  exact ⟨c, t, bs', r', rfl, h1, h2, fun hh => h3 (g2.2 hh), g1, by simp⟩

theorem symbolStart_solid {c : Byte} (h : SymbolStart c ∨ c = c! '$') : ¬ Blank c := by
  refine symbolChar_solid ?_
  rcases h with (h | h | h) | h
  · exact .inl h
  · exact .inr (.inr (.inl h))
  · exact .inr (.inr (.inr (.inl h)))
  · exact .inr (.inr (.inr (.inr h)))

theorem Resp.assignsOnly {u v l : Str} (h : Resp u v) (hs : AssignsOnly u l) : AssignsOnly v l := by
  obtain ⟨bs, bs', c, t, h1, h2, rfl, h3, h4, h5, e⟩ := hs
  have hl : ∀ d ∈ c :: t, ¬ Blank d := by
    intro d hd
    rcases List.mem_cons.1 hd with rfl | hd
    · exact symbolStart_solid h3
    · exact symbolChar_solid (h5 d hd)
  obtain ⟨cs, x, rfl, g1, -, g2⟩ := h.keyword (r := bs' ++ b! "=") (by rw [e]; simp) h1 (by simp) hl
  obtain ⟨cs', r', rfl, g3, -, g4⟩ := Resp.keyword (kw := b! "=") (r := []) g2 (by simp) h2 (by decide) (by decide)
  obtain rfl := g4.nil_right
  exact ⟨cs, cs', c, t, g1, g3, rfl, h3, h4, h5, by simp⟩

theorem Resp.definesLabel {u v l : Str} (h : Resp u v) (hp : ¬ IndentedProc u) (hs : DefinesLabel u l) : DefinesLabel v l := by
  obtain ⟨h1, h2, h3⟩ := hs
  have hl : ∀ d ∈ l, ¬ Blank d := fun d hd => (labelChar_other (h2 d hd)).1
  refine ⟨h1, h2, ?_⟩
  rcases h3 with ⟨r, rfl⟩ | ⟨x, bs, r, rfl, h4, h5⟩
  · obtain ⟨y, rfl, g⟩ := h.word hl
    obtain ⟨r', rfl, -⟩ := Resp.word (w := b! ":") g (by decide)
    exact .inl ⟨r', by simp⟩
  · have hx : ¬ Blank x := fun hb => hp ⟨[x], bs ++ l ++ c! ':' :: r, by simp, fun d hd => by rw [List.mem_singleton.1 hd]; exact hb, by simp⟩
    have e : x :: b! "proc" ++ bs ++ l ++ c! ':' :: r = (x :: b! "proc") ++ (bs ++ l ++ (c! ':' :: r)) := by simp
    rw [e] at h
    obtain ⟨y, rfl, g⟩ := h.word (by
      intro d hd
      rcases List.mem_cons.1 hd with rfl | hd
      · exact hx
      · exact (show ∀ d ∈ b! "proc", ¬ Blank d by decide) d hd)
    obtain ⟨cs, y', rfl, g1, g2, g3⟩ := g.keyword rfl h5 h1 hl
    obtain ⟨r', rfl, -⟩ := Resp.word (w := b! ":") g3 (by decide)
    exact .inr ⟨x, cs, r', by simp, fun hh => h4 (g2.2 hh), g1⟩

theorem Resp.indentedProc {u v : Str} (h : Resp u v) (hp : IndentedProc u) : IndentedProc v := by
  obtain ⟨bs, r, h1, h2, e⟩ := hp
  obtain ⟨bs', r', rfl, g1, g2, -⟩ := h.keyword e h2 (by decide) (by decide)
  exact ⟨bs', r', fun hh => h1 (g2.2 hh), g1, rfl⟩

/-! ### The first place -/

/-- The first place where `H` holds. -/
def FirstPlace (H : Str → Str → Prop) (line x : Str) : Prop :=
  ∃ a r, line = a ++ r ∧ H r x ∧ ∀ a' r' y, line = a' ++ r' → H r' y → a.length ≤ a'.length

theorem FirstPlace.here {H : Str → Str → Prop} {line x : Str} (h : H line x) : FirstPlace H line x :=
  ⟨[], line, rfl, h, fun _ _ _ _ _ => Nat.zero_le _⟩

theorem FirstPlace.cons {H : Str → Str → Prop} {c : Byte} {line x : Str} (hn : ∀ y, ¬ H (c :: line) y) : FirstPlace H (c :: line) x ↔ FirstPlace H line x := by
  constructor
  · rintro ⟨a, r, e, h1, h2⟩
    cases a with
    | nil =>
      obtain rfl : c :: line = r := e
      exact absurd h1 (hn x)
    | cons d a =>
      rw [List.cons_append, List.cons.injEq] at e
      obtain ⟨rfl, rfl⟩ := e
      refine ⟨a, r, rfl, h1, fun a' r' y e' hy => ?_⟩
      have := h2 (c :: a') r' y (by rw [e']; rfl) hy
      simpa using this
  · rintro ⟨a, r, rfl, h1, h2⟩
    refine ⟨c :: a, r, rfl, h1, fun a' r' y e' hy => ?_⟩
    cases a' with
    | nil =>
      obtain rfl : c :: (a ++ r) = r' := e'
      exact absurd hy (hn y)
    | cons d a' =>
      rw [List.cons_append, List.cons.injEq] at e'
      have := h2 a' r' y e'.2 hy
      simpa using this

theorem FirstPlace.at_ {H : Str → Str → Prop} {line x y : Str} (hy : H line y) (h : FirstPlace H line x) : H line x := by
  obtain ⟨a, r, e, h1, h2⟩ := h
  have := h2 [] line y rfl hy
  obtain rfl : a = [] := List.length_eq_zero_iff.1 (Nat.le_zero.1 this)
  rw [e]
  exact h1

theorem Resp.first {H : Str → Str → Prop} (hH : ∀ {u v x}, Resp u v → H u x → H v x) (hb : ∀ {c u x}, Blank c → ¬ H (c :: u) x) {u v x : Str}
    (h : Resp u v) (hf : FirstPlace H u x) : FirstPlace H v x := by
  induction h with
  | nil => exact hf
  | @char c u v hc hr ih =>
    by_cases hh : ∃ y, H (c :: u) y
    · obtain ⟨y, hy⟩ := hh
      exact FirstPlace.here (hH (.char hc hr) (hf.at_ hy))
    · have hh' : ∀ y, ¬ H (c :: v) y := fun y hy => hh ⟨y, hH (Resp.char hc hr).symm hy⟩
      rw [FirstPlace.cons hh']
      exact ih ((FirstPlace.cons fun y hy => hh ⟨y, hy⟩).1 hf)
  | @gap bs cs u v a b a' b' e f hr ih =>
    have skip : ∀ {bs u : Str}, Blanks bs → (FirstPlace H (bs ++ u) x ↔ FirstPlace H u x) := by
      intro bs u hbs
      induction bs with
      | nil => exact Iff.rfl
      | cons c bs ih =>
        rw [List.cons_append, FirstPlace.cons (fun y => hb (hbs c (by simp)))]
        exact ih fun d hd => hbs d (List.mem_cons_of_mem _ hd)
    rw [skip b']
    exact ih ((skip b).1 hf)

/-! ### CUDA headers -/

theorem Resp.edge {u u' : Str} (h : Resp u u') (hc : ∀ d ∈ u.head?, ¬ Blank d) : ∀ d ∈ u'.head?, ¬ Blank d := by
  rw [← h.head hc]; exact hc

theorem Resp.cudaStart {u v k : Str} (h : Resp u v) (hs : CudaStart u k) : CudaStart v k := by
  obtain ⟨bs, ret, c, t, h1, h2, h3, h4, h5, h6, e⟩ := hs
  have hk : ∀ d ∈ b! "." ++ k, ¬ Blank d := by
    simp only [List.mem_cons, List.not_mem_nil, or_false] at h1
    rcases h1 with rfl | rfl <;> decide
  have hl : ∀ d ∈ (c :: t) ++ b! "(", ¬ Blank d := by
    intro d hd
    rcases List.mem_append.1 hd with hd | hd
    · rcases List.mem_cons.1 hd with rfl | hd
      · exact symbolStart_solid h5
      · exact symbolChar_solid (h6 d hd)
    · exact (show ∀ d ∈ b! "(", ¬ Blank d by decide) d hd
  have hhead : ∀ d ∈ (ret ++ ((c :: t) ++ b! "(")).head?, ¬ Blank d := by
    rcases h4 with rfl | ⟨x, bs', rfl, -⟩
    · intro d hd; exact hl d (by simp at hd; simp [hd])
    · intro d hd
      obtain rfl : c! '(' = d := by simpa using hd
      decide
  have e' : u = (b! "." ++ k) ++ (bs ++ (ret ++ ((c :: t) ++ b! "("))) := by rw [e]; simp
  subst e'
  obtain ⟨y, rfl, g1⟩ := h.word hk
  obtain ⟨cs, z, rfl, g2, g3, g4⟩ := g1.run h3 hhead
  rcases h4 with rfl | ⟨x, bs', rfl, hx, hb'⟩
  · obtain ⟨r, rfl, g5⟩ := Resp.word (y := []) (by rw [List.append_nil]; exact g4) hl
    obtain rfl := g5.nil_right
    exact ⟨cs, [], c, t, h1, fun hh => h2 (g3.2 hh), g2, .inl rfl, h5, h6, by simp⟩
  · have e2 : b! "(" ++ x ++ b! ")" ++ bs' ++ ((c :: t) ++ b! "(") = b! "(" ++ (x ++ (b! ")" ++ (bs' ++ ((c :: t) ++ b! "(")))) := by simp
    rw [e2] at g4
    obtain ⟨z, rfl, g5⟩ := g4.word (by decide)
    obtain ⟨x', z, rfl, g6, g7⟩ := g5.split rfl (.inr (by intro d hd; obtain rfl : c! ')' = d := by simpa using hd
                                                          decide))
    obtain ⟨z, rfl, g8⟩ := g7.word (by decide)
    obtain ⟨cs', z, rfl, g9, -, g10⟩ := g8.run hb' (fun d hd => hl d (by simp at hd; simp [hd]))
    obtain ⟨r, rfl, g11⟩ := Resp.word (y := []) (by rw [List.append_nil]; exact g10) hl
    obtain rfl := g11.nil_right
    refine ⟨cs, b! "(" ++ x' ++ b! ")" ++ cs', c, t, h1, fun hh => h2 (g3.2 hh), g2, .inr ⟨x', cs', rfl, ?_, g9⟩, h5, h6, by simp⟩
    intro d hd hd'
    subst hd'
    exact hx _ ((g6.mem (by decide)).2 hd) rfl

theorem firstCuda_iff (line k : Str) : FirstCuda line k ↔ FirstPlace CudaStart line k := Iff.rfl

theorem Resp.firstCuda {u v k : Str} (h : Resp u v) (hs : FirstCuda u k) : FirstCuda v k := by
  refine Resp.first (H := CudaStart) (fun h hs => h.cudaStart hs) ?_ h hs
  rintro c u x hb ⟨bs, ret, d, t, -, -, -, -, -, -, e⟩
  simp only [List.append_assoc, List.cons_append, List.nil_append, List.cons.injEq] at e
  rw [e.1] at hb
  revert hb
  decide

theorem getCudaLabel_iff (line k : Str) : getCudaLabel line = some k ↔ FirstCuda line k := by
  refine ⟨getCudaLabel_first, fun h => ?_⟩
  obtain ⟨a, r, e, ⟨bs, ret, c, t, h1, h2, h3, h4, h5, h6, e'⟩, -⟩ := id h
  have hs := (getCudaLabel_isSome line).2 ⟨k, a, bs, ret, c, t, h1, h2, h3, h4, h5, h6, by rw [e, e']; simp⟩
  obtain ⟨k', hk'⟩ := Option.isSome_iff_exists.1 hs
  rw [hk', (getCudaLabel_first hk').unique h]

theorem opt_ext {α : Type} {a b : Option α} (h1 : ∀ x, a = some x → b = some x) (h2 : ∀ x, b = some x → a = some x) : a = b := by
  cases a with
  | some x => exact (h1 x rfl).symm
  | none =>
    cases b with
    | some x => exact absurd (h2 x rfl) (by simp)
    | none => rfl

theorem bool_ext {a b : Bool} (h1 : a = true → b = true) (h2 : b = true → a = true) : a = b := by
  cases a <;> cases b <;> simp_all

theorem Resp.labelFromLine {u v : Str} (h : Resp u v) (hp : ¬ IndentedProc u) : getLabelFromLine u = getLabelFromLine v := by
  have hp' : ¬ IndentedProc v := fun hh => hp (h.symm.indentedProc hh)
  have e1 : getLabel u = getLabel v := opt_ext (fun x hx => (getLabel_iff _ _).2 (h.definesLabel hp ((getLabel_iff _ _).1 hx)))
    (fun x hx => (getLabel_iff _ _).2 (h.symm.definesLabel hp' ((getLabel_iff _ _).1 hx)))
  have e2 : getLabelAssignment u = getLabelAssignment v :=
    opt_ext (fun x hx => (getLabelAssignment_iff _ _).2 (h.assignsLabel ((getLabelAssignment_iff _ _).1 hx)))
    (fun x hx => (getLabelAssignment_iff _ _).2 (h.symm.assignsLabel ((getLabelAssignment_iff _ _).1 hx)))
  have e3 : getAssignmentDef u = getAssignmentDef v :=
    opt_ext (fun x hx => (getAssignmentDef_iff _ _).2 (h.assignsOnly ((getAssignmentDef_iff _ _).1 hx)))
    (fun x hx => (getAssignmentDef_iff _ _).2 (h.symm.assignsOnly ((getAssignmentDef_iff _ _).1 hx)))
  have e4 : getCudaLabel u = getCudaLabel v :=
    opt_ext (fun x hx => (getCudaLabel_iff _ _).2 (h.firstCuda ((getCudaLabel_iff _ _).1 hx)))
    (fun x hx => (getCudaLabel_iff _ _).2 (h.symm.firstCuda ((getCudaLabel_iff _ _).1 hx)))
  unfold getLabelFromLine
  rw [e1, e2, e3, e4]

/-! ### Sections -/

/-- One of the words for sections begins here. -/
def SectionHere (r name : Str) : Prop :=
  ∃ kw t, kw ∈ [b! "data", b! "text", b! "section"] ∧ r = b! "." ++ kw ++ t ∧ name = if kw = b! "section" then sectionName t else kw

theorem switches_first (line name : Str) : SwitchesTo line name ↔ FirstPlace SectionHere line name := by
  constructor
  · rintro ⟨a, kw, r, h1, h2, h3, h4⟩
    refine ⟨a, b! "." ++ kw ++ r, by rw [h2]; simp, ⟨kw, r, h1, rfl, h4⟩, ?_⟩
    rintro a' r' y e ⟨kw', t, g1, rfl, -⟩
    exact h3 a' kw' t g1 (by rw [e]; simp)
  · rintro ⟨a, r, e, ⟨kw, t, h1, rfl, h2⟩, h3⟩
    refine ⟨a, kw, t, h1, by rw [e]; simp, fun a' kw' r' g1 g2 => ?_, h2⟩
    exact h3 a' (b! "." ++ kw' ++ r') _ (by rw [g2]; simp) ⟨kw', r', g1, rfl, rfl⟩

theorem Resp.takeWhile_solid {p : Byte → Bool} (hp : ∀ c, Blank c → p c = false) {u v : Str} (h : Resp u v) : u.takeWhile p = v.takeWhile p := by
  induction h with
  | nil => rfl
  | char _ _ ih => rw [List.takeWhile_cons, List.takeWhile_cons, ih]
  | @gap bs cs u v a b a' b' e f hr ih =>
    obtain ⟨x, bs, rfl⟩ := List.exists_cons_of_ne_nil a
    obtain ⟨y, cs, rfl⟩ := List.exists_cons_of_ne_nil a'
    rw [List.cons_append, List.cons_append, List.takeWhile_cons, List.takeWhile_cons, hp x (b x (by simp)), hp y (b' y (by simp))]
    rfl

theorem dropWhile_head {p : Byte → Bool} (u : Str) : ∀ d ∈ (u.dropWhile p).head?, p d = false := by
  intro d hd
  induction u with
  | nil => cases hd
  | cons c u ih =>
    rw [List.dropWhile_cons] at hd
    split at hd
    · exact ih hd
    · cases hd; simp_all

theorem Resp.dropWhile {p : Byte → Bool} (hp : (∀ c, Blank c → p c = true) ∨ ∀ c, Blank c → p c = false) {u v : Str} (h : Resp u v) :
    Resp (u.dropWhile p) (v.dropWhile p) := by
  induction h with
  | nil => exact .nil
  | char hc hr ih =>
    rw [List.dropWhile_cons, List.dropWhile_cons]
    split
    · exact ih
    · exact .char hc hr
  | @gap bs cs u v a b a' b' e f hr ih =>
    rcases hp with hp | hp
    · rw [List.dropWhile_append_of_pos (fun c hc => hp c (b c hc)), List.dropWhile_append_of_pos (fun c hc => hp c (b' c hc))]
      exact ih
    · obtain ⟨x, bs, rfl⟩ := List.exists_cons_of_ne_nil a
      obtain ⟨y, cs, rfl⟩ := List.exists_cons_of_ne_nil a'
      rw [List.cons_append, List.cons_append, List.dropWhile_cons_of_neg (by rw [hp x (b x (by simp))]; decide),
        List.dropWhile_cons_of_neg (by rw [hp y (b' y (by simp))]; decide), ← List.cons_append, ← List.cons_append]
      exact .gap a b a' b' e f hr

theorem Resp.sectionName {u v : Str} (h : Resp u v) : sectionName u = sectionName v := by
  unfold AsmParser.sectionName
  have hp : ∀ c, Blank c → (fun c : Byte => decide (c = 32) || decide (c = 9)) c = true := by
    rintro c (rfl | rfl) <;> rfl
  have hr := h.dropWhile (.inl hp)
  have hh : ∀ d ∈ (u.dropWhile fun c => decide (c = 32) || decide (c = 9)).head?, ¬ Blank d := by
    intro d hd hb
    exact absurd (dropWhile_head u d hd) (by rcases hb with rfl | rfl <;> decide)
  simp only
  rw [← hr.head hh]
  have hq : ∀ c, Blank c → ((c! 'a' ≤ c && c ≤ c! 'z') || (c! 'A' ≤ c && c ≤ c! 'Z') || (c! '0' ≤ c && c ≤ c! '9') || c == c! '.' || c == c! '-') = false := by
    rintro c (rfl | rfl) <;> decide
  split
  · rename_i hs
    have hs' := hs
    rw [hr.head hh] at hs'
    generalize (u.dropWhile fun c => decide (c = 32) || decide (c = 9)) = a at *
    generalize (v.dropWhile fun c => decide (c = 32) || decide (c = 9)) = b at *
    cases a with
    | nil => cases hs
    | cons x a =>
      obtain rfl : x = c! '"' := by simpa using hs
      obtain ⟨y, rfl, g⟩ := Resp.word (w := b! "\"") hr (by decide)
      exact g.takeWhile_solid hq
  · exact hr.takeWhile_solid hq

theorem Resp.sectionHere {u v x : Str} (h : Resp u v) (hs : SectionHere u x) : SectionHere v x := by
  obtain ⟨kw, t, h1, rfl, rfl⟩ := hs
  obtain ⟨t', rfl, g⟩ := h.word (by
    simp only [List.mem_cons, List.not_mem_nil, or_false] at h1
    rcases h1 with rfl | rfl | rfl <;> decide)
  exact ⟨kw, t', h1, rfl, by rw [g.sectionName]⟩

theorem Resp.switchesTo {u v n : Str} (h : Resp u v) (hs : SwitchesTo u n) : SwitchesTo v n := by
  rw [switches_first] at *
  refine Resp.first (H := SectionHere) (fun h hs => h.sectionHere hs) ?_ h hs
  rintro c u x hb ⟨kw, t, -, e, -⟩
  simp only [List.append_assoc, List.cons_append, List.nil_append, List.cons.injEq] at e
  rw [e.1] at hb
  revert hb
  decide

theorem Resp.section_eq {u v : Str} (h : Resp u v) : getSectionNameDef u = getSectionNameDef v :=
  opt_ext (fun _ hx => getSection_iff.2 (h.switchesTo (getSection_iff.1 hx))) (fun _ hx => getSection_iff.2 (h.symm.switchesTo (getSection_iff.1 hx)))

end AsmParser
