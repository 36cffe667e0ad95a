/-
Lemmas for C97, continued: instructions, references, declarations and source positions do not depend on the number of blanks either.
-/
import Verif.Proofs.RespLines
import Verif.Proofs.References
import Verif.Proofs.GraphLines

namespace AsmParser

attribute [local irreducible] Re.search Re.fullMatch

/-! ### Literals -/

theorem Resp.endBlock_eq {u v : Str} (h : Resp u v) : endBlock u = endBlock v := by
  have key : ∀ {u v : Str}, Resp u v → endBlock u = true → endBlock v = true := by
    intro u v h hu
    rw [endBlock_iff] at hu ⊢
    obtain ⟨k, hk, hc⟩ := hu
    refine ⟨k, hk, h.contains ?_ ?_ hc⟩
    · rintro rfl; revert hk; decide
    · simp only [List.mem_cons, List.not_mem_nil, or_false] at hk
      rcases hk with rfl | rfl | rfl | rfl <;> decide
  exact bool_ext (key h) (key h.symm)

theorem Resp.startProc_eq {u v : Str} (h : Resp u v) : startProcBlock u = startProcBlock v := by
  rw [Bool.eq_iff_iff, startProcBlock_iff, startProcBlock_iff]
  exact h.contains_iff (by decide) (by decide)

theorem Resp.inst_eq {u v : Str} (h : Resp u v) : isInstOpcode u = isInstOpcode v := by
  rw [Bool.eq_iff_iff, isInstOpcode_iff, isInstOpcode_iff]
  exact h.contains_iff (by decide) (by decide)

theorem Resp.brace_eq {u v : Str} (h : Resp u v) : u.contains c! '}' = v.contains c! '}' := by
  rw [Bool.eq_iff_iff, List.contains_iff_mem, List.contains_iff_mem]
  exact h.mem (by decide)

theorem Resp.data_eq {u v : Str} (h : Resp u v) : isDataDefn u = isDataDefn v := by
  have hk : ∀ kw ∈ dataDirectives, kw ≠ [] ∧ ∀ c ∈ kw, ¬ Blank c := by decide
  exact bool_ext (fun hu => (isDataDefn_iff _).2 (h.startsWith hk ((isDataDefn_iff _).1 hu)))
    (fun hu => (isDataDefn_iff _).2 (h.symm.startsWith hk ((isDataDefn_iff _).1 hu)))

theorem Resp.directive_eq {u v : Str} (h : Resp u v) : isDirective u = isDirective v := by
  have key : ∀ {u v : Str}, Resp u v → isDirective u = true → isDirective v = true := by
    intro u v h hu
    rw [isDirective_iff] at hu ⊢
    obtain ⟨bs, r, h1, e⟩ := hu
    obtain ⟨bs', r', rfl, g1, -, -⟩ := h.keyword (kw := b! ".") (r := r) (by rw [e]; simp) h1 (by decide) (by decide)
    exact ⟨bs', r', g1, by simp⟩
  exact bool_ext (key h) (key h.symm)

theorem Resp.cudaEnd_eq {u v : Str} (h : Resp u v) : isCudaEndDef u = isCudaEndDef v := by
  have key : ∀ {u v : Str}, Resp u v → isCudaEndDef u = true → isCudaEndDef v = true := by
    intro u v h hu
    rw [isCudaEndDef_iff] at hu ⊢
    obtain ⟨bs, bs', h1, h2, e⟩ := hu
    obtain ⟨cs, r', rfl, g1, -, g2⟩ := h.keyword (kw := b! ")") e h1 (by decide) (by decide)
    exact ⟨cs, r', g1, g2.blanks h2, rfl⟩
  exact bool_ext (key h) (key h.symm)

theorem Resp.weak_eq {u v : Str} (h : Resp u v) : getWeakDefinedLabel u = getWeakDefinedLabel v := by
  have hk1 : ∀ kw ∈ [b! ".weakext"], kw ≠ [] ∧ ∀ c ∈ kw, ¬ Blank c := by decide
  have hk2 : ∀ kw ∈ [b! ".weak"], kw ≠ [] ∧ ∀ c ∈ kw, ¬ Blank c := by decide
  have key : ∀ {u v : Str}, Resp u v → ∀ x, getWeakDefinedLabel u = some x → getWeakDefinedLabel v = some x := by
    intro u v h x hu
    rw [getWeak_iff] at hu ⊢
    rcases hu with hu | ⟨hu, hn⟩
    · exact .inl (h.declares hk1 hu)
    · exact .inr ⟨h.declares hk2 hu, fun ⟨l, hl⟩ => hn ⟨l, h.symm.declares hk1 hl⟩⟩
  exact opt_ext (key h) (key h.symm)

theorem Resp.global_eq {u v : Str} (h : Resp u v) : getGlobalDefinedLabel u = getGlobalDefinedLabel v := by
  have hk : ∀ kw ∈ globalDirectives, kw ≠ [] ∧ ∀ c ∈ kw, ¬ Blank c := by decide
  exact opt_ext (fun _ hu => (getGlobal_iff _ _).2 (h.declares hk ((getGlobal_iff _ _).1 hu)))
    (fun _ hu => (getGlobal_iff _ _).2 (h.symm.declares hk ((getGlobal_iff _ _).1 hu)))

/-! ### Instructions -/

theorem Resp.reverse {u v : Str} (h : Resp u v) : Resp u.reverse v.reverse := by
  induction h with
  | nil => exact .nil
  | char hc hr ih =>
    rw [List.reverse_cons, List.reverse_cons]
    exact ih.append (.char hc .nil) (.inr fun d hd => by cases hd; exact hc) (.inr fun d hd => by cases hd; exact hc)
  | @gap bs cs u v a b a' b' e f hr ih =>
    rw [List.reverse_append, List.reverse_append]
    refine ih.append ?_ (.inl fun d hd => e d (by simpa using hd)) (.inl fun d hd => f d (by simpa using hd))
    have := Resp.gap (u := []) (v := []) (bs := bs.reverse) (cs := cs.reverse) (by simpa using a) (fun c hc => b c (by simpa using hc))
      (by simpa using a') (fun c hc => b' c (by simpa using hc)) (fun d hd => by cases hd) (fun d hd => by cases hd) .nil
    simpa using this

theorem Resp.trimRight {u v : Str} (h : Resp u v) : Resp (trimRight u) (trimRight v) := by
  unfold AsmParser.trimRight
  exact (h.reverse.dropWhile (.inl fun c hc => by simpa using hc)).reverse

theorem Resp.takeWhile {p : Byte → Bool} (hp : ∀ c, Blank c → p c = true) {u v : Str} (h : Resp u v) : Resp (u.takeWhile p) (v.takeWhile p) := by
  induction h with
  | nil => exact .nil
  | char hc hr ih =>
    rw [List.takeWhile_cons, List.takeWhile_cons]
    split
    · exact .char hc ih
    · exact .nil
  | @gap bs cs u v a b a' b' e f hr ih =>
    rw [List.takeWhile_append_of_pos (fun c hc => hp c (b c hc)), List.takeWhile_append_of_pos (fun c hc => hp c (b' c hc))]
    have hd : ∀ {u : Str}, (∀ d ∈ u.head?, ¬ Blank d) → ∀ d ∈ (u.takeWhile p).head?, ¬ Blank d := by
      intro u hu d hd
      cases u with
      | nil => cases hd
      | cons x u =>
        rw [List.takeWhile_cons] at hd
        split at hd
        · cases hd; exact hu d rfl
        · cases hd
    exact .gap a b a' b' (hd e) (hd f) ih

theorem takeWhile_shorter {p : Byte → Bool} (u : Str) : (u.takeWhile p).length < u.length ↔ ∃ c ∈ u, p c = false := by
  induction u with
  | nil => simp
  | cons c u ih =>
    rw [List.takeWhile_cons]
    by_cases hc : p c = true
    · rw [if_pos hc]
      simp only [List.length_cons, Nat.add_lt_add_iff_right, ih, List.mem_cons, exists_eq_or_imp, hc]
      simp
    · rw [if_neg hc]
      simp [Bool.not_eq_true] at hc
      simp [hc]

theorem Resp.counted {u v : Str} (h : Resp u v) : Resp (counted u) (counted v) := by
  unfold AsmParser.counted
  have h1 : Resp (u.takeWhile fun c => decide (¬ CommentChar c)) (v.takeWhile fun c => decide (¬ CommentChar c)) :=
    h.takeWhile fun c hc => by rcases hc with rfl | rfl <;> decide
  have h2 : ((u.takeWhile fun c => decide (¬ CommentChar c)).length < u.length) ↔ ((v.takeWhile fun c => decide (¬ CommentChar c)).length < v.length) := by
    rw [takeWhile_shorter, takeWhile_shorter]
    constructor
    · rintro ⟨c, hc, hp⟩
      exact ⟨c, (h.mem (by rintro (rfl | rfl) <;> revert hp <;> decide)).1 hc, hp⟩
    · rintro ⟨c, hc, hp⟩
      exact ⟨c, (h.mem (by rintro (rfl | rfl) <;> revert hp <;> decide)).2 hc, hp⟩
  have h3 : Resp (AsmParser.trimRight (u.reverse.dropWhile fun c => decide (¬ Blank c)).reverse) (AsmParser.trimRight (v.reverse.dropWhile fun c => decide (¬ Blank c)).reverse) :=
    (h.reverse.dropWhile (.inr fun c hc => by simpa using hc)).reverse.trimRight
  simp only [h2]
  split
  · have h4 : Blanks (u.takeWhile fun c => decide (¬ CommentChar c)) ↔ Blanks (v.takeWhile fun c => decide (¬ CommentChar c)) := ⟨h1.blanks, h1.symm.blanks⟩
    simp only [h4]
    split
    · exact h1
    · exact h1.trimRight
  · simp only [h3.nil_iff]
    split
    · exact h
    · exact h3

theorem letter_solid {c : Byte} (h : Letter c ∨ c = c! '@' ∨ c = c! '|') : ¬ Blank c := by
  rintro (rfl | rfl) <;> revert h <;> unfold Letter <;> decide

theorem Resp.instruction {u v : Str} (h : Resp u v) {code : Bool} (hi : Instruction code u) : Instruction code v := by
  unfold Instruction at *
  have hc := h.counted
  generalize AsmParser.counted u = a at *
  generalize AsmParser.counted v = b at *
  rcases hi with hi | ⟨h1, h2⟩
  · exact .inl (hc.contains (by decide) (by decide) hi)
  · refine .inr ⟨fun l hl => h1 l (hc.symm.assignsOnly hl), ?_⟩
    cases code with
    | true =>
      simp only [if_true] at h2 ⊢
      obtain ⟨bs, c, g1, g2, e⟩ := h2
      obtain ⟨bs', r', rfl, k1, -, k2⟩ := hc.keyword (kw := [c]) (r := []) (by rw [e]; simp) g1 (by simp) (fun d hd => by rw [List.mem_singleton.1 hd]; exact letter_solid g2)
      obtain rfl := k2.nil_right
      exact ⟨bs', c, k1, g2, by simp⟩
    | false =>
      simp only [Bool.false_eq_true, if_false] at h2 ⊢
      obtain ⟨bs, c, r, g1, g2, e⟩ := h2
      obtain ⟨bs', r', rfl, k1, -, -⟩ := hc.keyword (kw := [c]) (r := r) (by rw [e]; simp) g1 (by simp) (fun d hd => by rw [List.mem_singleton.1 hd]; exact letter_solid (.inl g2))
      exact ⟨bs', c, r', k1, g2, by simp⟩

theorem Resp.hasOpcode_eq {u v : Str} (h : Resp u v) (code : Bool) : hasOpcode u code = hasOpcode v code :=
  bool_ext (fun hu => (hasOpcode_iff _ _).2 (h.instruction ((hasOpcode_iff _ _).1 hu)))
    (fun hu => (hasOpcode_iff _ _).2 (h.symm.instruction ((hasOpcode_iff _ _).1 hu)))

/-! ### References -/

theorem blank_head {u v : Str} (h : Resp u v) (hh : ∀ d ∈ u.head?, Blank d) : ∀ d ∈ v.head?, Blank d := by
  cases h with
  | nil => exact hh
  | char hc _ => exact absurd (hh _ rfl) hc
  | @gap bs cs u v a b a' b' e f _ =>
    obtain ⟨y, cs, rfl⟩ := List.exists_cons_of_ne_nil a'
    intro d hd
    cases hd
    exact b' _ (by simp)

theorem codePart_head {u : Str} (hu : ∀ d ∈ u.head?, ¬ Blank d) : ∀ d ∈ (codePart u).head?, ¬ Blank d := by
  intro d hd
  cases u with
  | nil => cases hd
  | cons x u =>
    rw [codePart] at hd
    split at hd
    · cases hd
    · cases hd; exact hu _ rfl

theorem codePart_blanks {bs u : Str} (hb : Blanks bs) : codePart (bs ++ u) = bs ++ codePart u := by
  induction bs with
  | nil => rfl
  | cons c bs ih =>
    rw [List.cons_append, codePart, if_neg, ih fun d hd => hb d (List.mem_cons_of_mem _ hd)]
    · rfl
    · rintro ⟨hc, -⟩
      have := hb c (by simp)
      rcases hc with rfl | rfl <;> revert this <;> decide

theorem Resp.codePart {u v : Str} (h : Resp u v) : Resp (codePart u) (codePart v) := by
  induction h with
  | nil => exact .nil
  | @char c u v hc hr ih =>
    rw [AsmParser.codePart, AsmParser.codePart]
    have : (∀ d ∈ u.head?, Blank d) ↔ ∀ d ∈ v.head?, Blank d := ⟨blank_head hr, blank_head hr.symm⟩
    simp only [this]
    split
    · exact .nil
    · exact .char hc ih
  | gap a b a' b' e f hr ih =>
    rw [codePart_blanks b, codePart_blanks b']
    exact .gap a b a' b' (codePart_head e) (codePart_head f) ih

theorem Resp.operandPart {u v : Str} (h : Resp u v) : Resp (operandPart u) (operandPart v) := by
  unfold AsmParser.operandPart
  have h1 := (h.dropWhile (p := fun c => decide (¬ ((97 ≤ c ∧ c ≤ 122) ∨ (65 ≤ c ∧ c ≤ 90)))) (.inl fun c hc => by rcases hc with rfl | rfl <;> decide)).dropWhile
    (p := fun c => decide (¬ Blank c)) (.inr fun c hc => by simpa using hc)
  simp only [h1.nil_iff]
  split
  · exact h
  · exact h1

theorem nameWords_blanks {bs u : Str} (hb : Blanks bs) : nameWords [] [] (bs ++ u) = nameWords [] [] u := by
  induction bs with
  | nil => rfl
  | cons c bs ih =>
    rw [← ih fun d hd => hb d (List.mem_cons_of_mem _ hd), List.cons_append]
    conv => lhs; rw [nameWords]
    have := hb c (by simp)
    rcases this with rfl | rfl <;> simp [startsWord, isSigil]

theorem Resp.nameWords {u v : Str} (h : Resp u v) : ∀ s c, nameWords s c u = nameWords s c v := by
  induction h with
  | nil => intro s c; rfl
  | char hc hr ih =>
    intro s c
    rw [AsmParser.nameWords, AsmParser.nameWords]
    simp only [ih]
  | @gap bs cs u v a b a' b' e f hr ih =>
    intro s c
    obtain ⟨x, bs, rfl⟩ := List.exists_cons_of_ne_nil a
    obtain ⟨y, cs, rfl⟩ := List.exists_cons_of_ne_nil a'
    have key : ∀ {x : Byte} {bs u : Str}, Blanks (x :: bs) → AsmParser.nameWords s c (x :: bs ++ u) = (if c = [] then [] else [(s, c)]) ++ AsmParser.nameWords [] [] u := by
      intro x bs u hb
      rw [List.cons_append]
      conv => lhs; rw [AsmParser.nameWords]
      have hh := nameWords_blanks (u := u) fun d hd => hb d (List.mem_cons_of_mem _ hd)
      have := hb x (by simp)
      rcases this with rfl | rfl <;> simp [startsWord, isSigil, inWord, hh]
    rw [key b, key b', ih]

theorem Resp.mentioned {u v : Str} (h : Resp u v) : mentioned u = mentioned v := by
  unfold AsmParser.mentioned
  have h1 := h.codePart.operandPart
  simp only [h1.mem (c := c! '"') (by decide), h1.nameWords]

theorem Resp.usedLabels {u v : Str} (h : Resp u v) (L : Locale) : (getUsedLabelsInLine L u).map (·.name) = (getUsedLabelsInLine L v).map (·.name) := by
  rw [usedLabels_names, usedLabels_names, h.mentioned]

/-! ### Source positions -/

theorem digit_solid {c : Byte} (h : Digit c) : ¬ Blank c := by
  rintro (rfl | rfl) <;> revert h <;> unfold Digit <;> decide

theorem Resp.digitHead {r r' : Str} (h : Resp r r') (hd : ∀ c ∈ r.head?, ¬ Digit c) : ∀ c ∈ r'.head?, ¬ Digit c := by
  intro c hc hg
  have := h.symm.head (fun x hx hb => by rw [hc] at hx; cases hx; exact digit_solid hg hb)
  exact hd c (by rw [← this]; exact hc) hg

theorem Resp.number {n r y : Str} (h : Resp (n ++ r) y) (hn : Number n r) : ∃ r', y = n ++ r' ∧ Resp r r' ∧ Number n r' := by
  obtain ⟨r', rfl, g⟩ := h.word fun c hc => digit_solid (hn.2.1 c hc)
  exact ⟨r', rfl, g, hn.1, hn.2.1, g.digitHead hn.2.2⟩

theorem number_head {n r x : Str} (hn : Number n r) : ∀ d ∈ (n ++ x).head?, ¬ Blank d := by
  intro d hd
  obtain ⟨c, t, rfl⟩ := List.exists_cons_of_ne_nil hn.1
  cases hd
  exact digit_solid (hn.2.1 _ (by simp))

theorem Resp.locLine {u v : Str} {i n c : Int} (h : Resp u v) (hl : LocLine u i n c) : LocLine v i n c := by
  obtain ⟨a, bs, b, r, h1, rfl, h2, h3, h4, rfl, h5, h6⟩ := hl
  rw [show a ++ bs ++ b ++ r = a ++ (bs ++ (b ++ r)) by simp] at h5
  obtain ⟨x, g1, g2⟩ := h.instructs h5 (by decide) (by decide) (number_head h1)
  obtain ⟨x, rfl, g3⟩ := g2.word (fun c hc => digit_solid (h1.2.1 c hc))
  obtain ⟨cs, y, rfl, g4, g5, g6⟩ := g3.run h3 (number_head h4)
  obtain ⟨r', rfl, g7, g8⟩ := g6.number h4
  have col : ∀ {r r' : Str}, Resp r r' → ∀ c, (∃ bs' d r'', bs' ≠ [] ∧ Blanks bs' ∧ Number d r'' ∧ r = bs' ++ d ++ r'' ∧ c = numberOf d) →
      ∃ bs' d r'', bs' ≠ [] ∧ Blanks bs' ∧ Number d r'' ∧ r' = bs' ++ d ++ r'' ∧ c = numberOf d := by
    rintro r r' h c ⟨bs', d, r'', k1, k2, k3, rfl, rfl⟩
    rw [List.append_assoc] at h
    obtain ⟨cs', z, rfl, j1, j2, j3⟩ := h.run k2 (number_head k3)
    obtain ⟨z, rfl, -, j4⟩ := j3.number k3
    exact ⟨cs', d, z, fun hh => k1 (j2.2 hh), j1, j4, by simp, rfl⟩
  refine ⟨a, cs, b, r', ?_, rfl, fun hh => h2 (g5.2 hh), g4, g8, rfl, ?_, ?_⟩
  · refine ⟨h1.1, h1.2.1, ?_⟩
    intro d hd hg
    cases cs with
    | nil => cases hd
    | cons y cs => cases hd; exact digit_solid hg (g4 _ (by simp))
  · rw [show a ++ cs ++ b ++ r' = a ++ (cs ++ (b ++ r')) by simp]; exact g1
  · rcases h6 with h6 | ⟨h6, rfl⟩
    · exact .inl (col g7 c h6)
    · refine .inr ⟨?_, rfl⟩
      intro bs' d r'' k1 k2 k3 k4
      obtain ⟨x1, x2, x3, y1, y2, y3, y4, -⟩ := col g7.symm _ ⟨bs', d, r'', k1, k2, k3, k4, rfl⟩
      exact h6 x1 x2 x3 y1 y2 y3 y4

theorem locLine_unique {t : Str} {i n c i' n' c' : Int} (h : LocLine t i n c) (h' : LocLine t i' n' c') : (i, n, c) = (i', n', c') :=
  (getSourceRef_of h).symm.trans (getSourceRef_of h')

theorem Resp.sourceRef_eq {u v : Str} (h : Resp u v) : getSourceRef u = getSourceRef v := by
  rcases getSourceRef_cases u with ⟨i, n, c, h1, e⟩ | ⟨h1, e⟩
  · rw [e, getSourceRef_of (h.locLine h1)]
  · rcases getSourceRef_cases v with ⟨i, n, c, h2, -⟩ | ⟨-, e'⟩
    · exact absurd (h.symm.locLine h2) (h1 i n c)
    · rw [e, e']

theorem Resp.stab {u v : Str} {k n : Int} (h : Resp u v) (hs : StabDirective u k n) : StabDirective v k n := by
  obtain ⟨a, b, r, h1, rfl, h2, rfl, h3⟩ := hs
  rw [show a ++ b! ",0," ++ b ++ b! "," ++ r = (a ++ b! ",0," ++ b ++ b! ",") ++ r by simp] at h3
  obtain ⟨x, g1, g2⟩ := h.instructs h3 (by decide) (by decide) (by
    intro d hd
    obtain ⟨c, t, rfl⟩ := List.exists_cons_of_ne_nil h1.1
    cases hd
    exact digit_solid (h1.2.1 _ (by simp)))
  obtain ⟨r', rfl, -⟩ := g2.word (by
    intro c hc
    simp only [List.mem_append] at hc
    rcases hc with ((hc | hc) | hc) | hc
    · exact digit_solid (h1.2.1 c hc)
    · exact (show ∀ c ∈ b! ",0,", ¬ Blank c by decide) c hc
    · exact digit_solid (h2.2.1 c hc)
    · exact (show ∀ c ∈ b! ",", ¬ Blank c by decide) c hc)
  exact ⟨a, b, r', h1, rfl, h2, rfl, by simpa using g1⟩

theorem Resp.stabs_eq {u v : Str} (h : Resp u v) : getSourceInfoFromStabs u = getSourceInfoFromStabs v := by
  rcases getStabs_cases u with ⟨k, n, h1, e⟩ | ⟨h1, e⟩
  · rw [e, getStabs_of (h.stab h1)]
  · rcases getStabs_cases v with ⟨k, n, h2, -⟩ | ⟨-, e'⟩
    · exact absurd (h.symm.stab h2) (h1 k n)
    · rw [e, e']

theorem Resp.d2line_eq {u v : Str} (h : Resp u v) : getD2LineInfo u = getD2LineInfo v := by
  have key : ∀ {u v : Str}, Resp u v → ∀ n, getD2LineInfo u = some n → getD2LineInfo v = some n := by
    intro u v h n hu
    rw [getD2Line_iff] at hu ⊢
    obtain ⟨a, r, h1, rfl, h2⟩ := hu
    obtain ⟨x, g1, g2⟩ := h.instructs h2 (by decide) (by decide) (number_head h1)
    obtain ⟨r', rfl, -, g3⟩ := g2.number h1
    exact ⟨a, r', g3, rfl, g1⟩
  exact opt_ext (key h) (key h.symm)

/-! ### Names in quotes -/

theorem fromQuote_of {x s : Str} (h : c! '"' ∉ x) : fromQuote (x ++ c! '"' :: s) = c! '"' :: s := by
  unfold fromQuote
  rw [List.dropWhile_append_of_pos (by intro c hc; simp; rintro rfl; exact h hc), List.dropWhile_cons_of_neg (by decide)]

theorem solid_quote {x : Str} (h : Blanks x) : c! '"' ∉ x := fun hh => by
  have := h _ hh
  revert this
  decide

theorem digits_quote {a : Str} (h : ∀ c ∈ a, Digit c) : c! '"' ∉ a := fun hh => by
  have := h _ hh
  revert this
  unfold Digit
  decide

/-- The argument that begins with a quote is the same. -/
theorem quoted_same {u v kw pre pre' s y : Str} (hq : fromQuote u = fromQuote v) (hu : Instructs u kw (pre ++ c! '"' :: s)) (hv : Instructs v kw (pre' ++ y))
    (h : Resp (c! '"' :: s) y) (h3 : c! '"' ∉ kw) (h4 : c! '"' ∉ pre) (h5 : c! '"' ∉ pre') : y = c! '"' :: s := by
  obtain ⟨y, rfl, -⟩ := Resp.word (w := b! "\"") h (by decide)
  obtain ⟨bs, bs', k1, -, k2, rfl⟩ := hu
  obtain ⟨cs, cs', j1, -, j2, rfl⟩ := hv
  rw [show bs ++ kw ++ bs' ++ (pre ++ c! '"' :: s) = (bs ++ kw ++ bs' ++ pre) ++ c! '"' :: s by simp,
    show cs ++ kw ++ cs' ++ (pre' ++ (b! "\"" ++ y)) = (cs ++ kw ++ cs' ++ pre') ++ c! '"' :: y by simp,
    fromQuote_of (by simp only [List.mem_append, not_or]; exact ⟨⟨⟨solid_quote k1, h3⟩, solid_quote k2⟩, h4⟩),
    fromQuote_of (by simp only [List.mem_append, not_or]; exact ⟨⟨⟨solid_quote j1, h3⟩, solid_quote j2⟩, h5⟩)] at hq
  exact hq.symm

theorem Resp.file_eq {u v : Str} (h : Resp u v) (hq : fromQuote u = fromQuote v) : getFileDef u = getFileDef v := by
  have key : ∀ {u v : Str}, Resp u v → fromQuote u = fromQuote v → ∀ x, getFileDef u = some x → getFileDef v = some x := by
    rintro u v h hq ⟨i, name⟩ hu
    rw [getFileDef_iff] at hu ⊢
    obtain ⟨d, bs, q, a, r, h1, rfl, h2, h3, ⟨q1, q2, rfl⟩, h4, h5⟩ := hu
    have e : d ++ bs ++ (b! "\"" ++ a ++ b! "\"") ++ r = (d ++ bs) ++ c! '"' :: (a ++ b! "\"" ++ r) := by simp
    rw [e] at h4
    obtain ⟨x, g1, g2⟩ := h.instructs h4 (by decide) (by decide) (by rw [List.append_assoc]; exact number_head h1)
    rw [List.append_assoc] at g2
    obtain ⟨x, rfl, g3⟩ := g2.word (fun c hc => digit_solid (h1.2.1 c hc))
    obtain ⟨cs, y, rfl, g4, g5, g6⟩ := g3.run h3 (by intro d hd; cases hd; decide)
    rw [← List.append_assoc] at g1
    have hd := digits_quote h1.2.1
    obtain rfl := quoted_same hq h4 g1 g6 (by decide) (by simp only [List.mem_append, not_or]; exact ⟨hd, solid_quote h3⟩)
      (by simp only [List.mem_append, not_or]; exact ⟨hd, solid_quote g4⟩)
    refine ⟨d, cs, _, a, r, ⟨h1.1, h1.2.1, ?_⟩, rfl, fun hh => h2 (g5.2 hh), g4, ⟨q1, q2, rfl⟩, ?_, h5⟩
    · intro x hx hg
      cases cs with
      | nil => cases hx
      | cons y cs => cases hx; exact digit_solid hg (g4 _ (by simp))
    · have e' : d ++ cs ++ (b! "\"" ++ a ++ b! "\"") ++ r = (d ++ cs) ++ c! '"' :: (a ++ b! "\"" ++ r) := by simp
      rw [e']; exact g1
  exact opt_ext (key h hq) (key h.symm hq.symm)

theorem Resp.dbg_eq {u v : Str} (h : Resp u v) (hq : fromQuote u = fromQuote v) : get6502DbgInfo u = get6502DbgInfo v := by
  have key : ∀ {u v : Str}, Resp u v → fromQuote u = fromQuote v → ∀ file n, DbgDirective u file n → DbgDirective v file n := by
    rintro u v h hq file n ⟨bs, q, bs', a, h1, ⟨q1, q2, rfl⟩, h2, h3, rfl, h4⟩
    have e : b! "line," ++ bs ++ (b! "\"" ++ file ++ b! "\"") ++ b! "," ++ bs' ++ a = (b! "line," ++ bs) ++ c! '"' :: (file ++ b! "\"" ++ b! "," ++ bs' ++ a) := by simp
    rw [e] at h4
    obtain ⟨x, g1, g2⟩ := h.instructs h4 (by decide) (by decide) (by intro d hd; cases hd; decide)
    rw [List.append_assoc] at g2
    obtain ⟨x, rfl, g3⟩ := g2.word (by decide)
    obtain ⟨cs, y, rfl, g4, g5, g6⟩ := g3.run h1 (by intro d hd; cases hd; decide)
    rw [← List.append_assoc] at g1
    obtain rfl := quoted_same hq h4 g1 g6 (by decide) (by simp only [List.mem_append, not_or]; exact ⟨by decide, solid_quote h1⟩)
      (by simp only [List.mem_append, not_or]; exact ⟨by decide, solid_quote g4⟩)
    refine ⟨cs, _, bs', a, g4, ⟨q1, q2, rfl⟩, h2, h3, rfl, ?_⟩
    have e' : b! "line," ++ cs ++ (b! "\"" ++ file ++ b! "\"") ++ b! "," ++ bs' ++ a = (b! "line," ++ cs) ++ c! '"' :: (file ++ b! "\"" ++ b! "," ++ bs' ++ a) := by simp
    rw [e']; exact g1
  have mark : ∀ {u v : Str}, Resp u v → DbgMark u → DbgMark v := by
    rintro u v h ⟨r, hr⟩
    obtain ⟨x, g1, g2⟩ := h.instructs hr (by decide) (by decide) (by intro d hd; cases hd; decide)
    obtain ⟨x, rfl, -⟩ := g2.word (by decide)
    exact ⟨x, g1⟩
  have key2 : ∀ {u v : Str}, Resp u v → fromQuote u = fromQuote v → ∀ x, get6502DbgInfo u = some x → get6502DbgInfo v = some x := by
    intro u v h hq x hu
    by_cases hd : ∃ file n, DbgDirective u file n
    · obtain ⟨file, n, hd⟩ := hd
      rw [getDbg_of hd] at hu
      rw [getDbg_of (key h hq _ _ hd), hu]
    · have hd' : ¬ ∃ file n, DbgDirective v file n := fun ⟨f, n, hh⟩ => hd ⟨f, n, key h.symm hq.symm _ _ hh⟩
      have hm : DbgMark u := (get6502_isSome u).1 (by rw [hu]; rfl)
      have none6502 : ∀ {t : Str}, (¬ ∃ file n, DbgDirective t file n) → DbgMark t → get6502DbgInfo t = some ⟨[], 0, true⟩ := by
        intro t h1 h2
        unfold get6502DbgInfo
        cases hx : Regexes.source6502Dbg.fullMatch t with
        | some m => exact absurd (source6502_form (by rw [hx]; rfl)) h1
        | none => simp only; rw [if_pos ((dbgMark_iff t).2 h2)]
      rw [none6502 hd hm] at hu
      rw [none6502 hd' (mark h hm), hu]
  exact opt_ext (key2 h hq) (key2 h.symm hq.symm)

theorem Resp.d2file_eq {u v : Str} (h : Resp u v) (hq : fromQuote u = fromQuote v) : getD2FileInfo u = getD2FileInfo v := by
  have key : ∀ {u v : Str}, Resp u v → fromQuote u = fromQuote v → ∀ x, getD2FileInfo u = some x → getD2FileInfo v = some x := by
    intro u v h hq x hu
    rw [getD2File_iff] at hu ⊢
    have hu' : Instructs u b! ".d2file" ([] ++ c! '"' :: (x ++ b! "\"")) := hu
    obtain ⟨y, g1, g2⟩ := h.instructs hu' (by decide) (by decide) (by intro d hd; cases hd; decide)
    obtain rfl := quoted_same (pre' := []) hq hu' g1 g2 (by decide) (by simp) (by simp)
    exact g1
  exact opt_ext (key h hq) (key h.symm hq.symm)

theorem starts_of_instructs {t kw arg : Str} {ks : List Str} (h : Instructs t kw arg) (hk : kw ∈ ks) : StartsWithOneOf ks t := by
  obtain ⟨bs, bs', h1, -, -, rfl⟩ := h
  exact ⟨bs, kw, bs' ++ arg, h1, hk, by simp⟩

theorem names_words : ∀ kw ∈ nameDirectives, kw ≠ [] ∧ ∀ c ∈ kw, ¬ Blank c := by decide

theorem noName {t : Str} (h : ¬ StartsWithOneOf nameDirectives t) : getFileDef t = none ∧ get6502DbgInfo t = none ∧ getD2FileInfo t = none := by
  refine ⟨?_, ?_, ?_⟩
  · cases hx : getFileDef t with
    | none => rfl
    | some d =>
      obtain ⟨d, bs, q, a, r, -, -, -, -, -, h4, -⟩ := getFileDef_iff.1 (show getFileDef t = some (d.1, d.2) from hx)
      exact absurd (starts_of_instructs h4 (by simp [nameDirectives])) h
  · cases hx : get6502DbgInfo t with
    | none => rfl
    | some d =>
      obtain ⟨r, hr⟩ := (get6502_isSome t).1 (by rw [hx]; rfl)
      exact absurd (starts_of_instructs hr (by simp [nameDirectives])) h
  · cases hx : getD2FileInfo t with
    | none => rfl
    | some d => exact absurd (starts_of_instructs (getD2File_iff.1 hx) (by simp [nameDirectives])) h

theorem SameWords.resp {u v : Str} (h : SameWords u v) : Resp u v := resp_iff.2 h.1

theorem SameWords.names {u v : Str} (h : SameWords u v) : getFileDef u = getFileDef v ∧ get6502DbgInfo u = get6502DbgInfo v ∧ getD2FileInfo u = getD2FileInfo v := by
  by_cases hs : StartsWithOneOf nameDirectives u
  · exact ⟨h.resp.file_eq (h.2 hs), h.resp.dbg_eq (h.2 hs), h.resp.d2file_eq (h.2 hs)⟩
  · have hs' : ¬ StartsWithOneOf nameDirectives v := fun hh => hs (h.resp.symm.startsWith names_words hh)
    obtain ⟨a1, a2, a3⟩ := noName hs
    obtain ⟨b1, b2, b3⟩ := noName hs'
    rw [a1, a2, a3, b1, b2, b3]
    exact ⟨rfl, rfl, rfl⟩

theorem SameWords.refl (u : Str) : SameWords u u := ⟨rfl, fun _ => rfl⟩

end AsmParser
