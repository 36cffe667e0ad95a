/-
Helper lemmas: `squashHorizontalWhitespaceWithQuotes` splits a line at its string literals.
-/
import Verif.Proofs.RegexFirst
import Verif.Proofs.TextUtils

namespace AsmParser
open Re Regexes

theorem literalTail_ne {t : Str} (h : LiteralTail t) : t ≠ [] := by cases h <;> simp

theorem literalTail_unique {t t' r r' : Str} (h : LiteralTail t) (h' : LiteralTail t') (e : t ++ r = t' ++ r') : t = t' := by
  induction h generalizing t' with
  | close =>
    cases h' with
    | close => rfl
    | plain h1 _ _ => simp at e; exact absurd e.1.symm h1
    | escape _ => simp at e
  | plain h1 h2 _ ih =>
    cases h' with
    | close => simp at e; exact absurd e.1 h1
    | plain _ _ h' =>
      simp only [List.cons_append, List.cons.injEq] at e
      rw [e.1, ih h' e.2]
    | escape _ => simp at e; exact absurd e.1 h2
  | escape _ ih =>
    cases h' with
    | close => simp at e
    | plain _ h2 _ => simp at e; exact absurd e.1.symm h2
    | escape h' =>
      simp only [List.cons_append, List.cons.injEq, true_and] at e
      rw [e.1, ih h' e.2]

theorem lang_quotedChar {p w rest cs} : Lang quotedChar p w rest cs ↔
    ((∃ c, w = [c] ∧ c ≠ c! '"' ∧ c ≠ c! '\\') ∨ ∃ c, w = [c! '\\', c]) ∧ cs = [] := by
  show Lang (.alt _ (.seq _ _)) p w rest cs ↔ _
  rw [lang_alt, lang_cls, lang_seq]
  simp only [lang_chr, lang_any]
  constructor
  · rintro (⟨⟨c, rfl, h⟩, rfl⟩ | ⟨w1, w2, c1, c2, rfl, ⟨rfl, rfl⟩, ⟨⟨b, rfl⟩, rfl⟩, rfl⟩)
    · exact ⟨.inl ⟨c, rfl, by simpa using h⟩, rfl⟩
    · exact ⟨.inr ⟨b, rfl⟩, rfl⟩
  · rintro ⟨⟨c, rfl, h⟩ | ⟨c, rfl⟩, rfl⟩
    · exact .inl ⟨⟨c, rfl, by simpa using h⟩, rfl⟩
    · exact .inr ⟨[c! '\\'], [c], [], [], rfl, ⟨rfl, rfl⟩, ⟨⟨c, rfl⟩, rfl⟩, rfl⟩

theorem starLang_quoted {p w rest cs} (h : StarLang (Lang quotedChar) p w rest cs) : cs = [] ∧ ∀ t, LiteralTail t → LiteralTail (w ++ t) := by
  induction h with
  | nil => exact ⟨rfl, fun t h => h⟩
  | cons hne hq _ ih =>
    obtain ⟨h, rfl⟩ := lang_quotedChar.1 hq
    refine ⟨by simp [ih.1], fun t ht => ?_⟩
    rcases h with ⟨c, rfl, h1, h2⟩ | ⟨c, rfl⟩
    · exact .plain h1 h2 (ih.2 t ht)
    · exact .escape (ih.2 t ht)

theorem lang_literalTail {p w rest cs} : Lang (many quotedChar ++ chr c! '"') p w rest cs ↔ LiteralTail w ∧ cs = [] := by
  show Lang (.seq _ _) p w rest cs ↔ _
  rw [lang_seq]
  simp only [lang_chr]
  constructor
  · rintro ⟨w1, w2, c1, c2, rfl, h, ⟨rfl, rfl⟩, rfl⟩
    obtain ⟨rfl, h'⟩ := starLang_quoted h
    exact ⟨h' _ .close, rfl⟩
  · rintro ⟨h, rfl⟩
    induction h generalizing p with
    | close => exact ⟨[], [c! '"'], [], [], rfl, .nil, ⟨rfl, rfl⟩, rfl⟩
    | plain h1 h2 _ ih =>
      rename_i c s _
      obtain ⟨w1, w2, c1, c2, rfl, h, ⟨rfl, rfl⟩, e⟩ := ih (p := p + 1)
      obtain ⟨rfl, -⟩ := starLang_quoted h
      exact ⟨[c] ++ w1, _, [], [], rfl, .cons (c1 := []) (by simp) (lang_quotedChar.2 ⟨.inl ⟨c, rfl, h1, h2⟩, rfl⟩) h, ⟨rfl, rfl⟩, rfl⟩
    | escape _ ih =>
      rename_i c s _
      obtain ⟨w1, w2, c1, c2, rfl, h, ⟨rfl, rfl⟩, e⟩ := ih (p := p + 2)
      obtain ⟨rfl, -⟩ := starLang_quoted h
      exact ⟨[c! '\\', c] ++ w1, _, [], [], rfl, .cons (c1 := []) (by simp) (lang_quotedChar.2 ⟨.inr ⟨c, rfl⟩, rfl⟩) h, ⟨rfl, rfl⟩, rfl⟩

theorem lang_literal {p w rest cs} : Lang (chr c! '"' ++ many quotedChar ++ chr c! '"') p w rest cs ↔ IsLiteral w ∧ cs = [] := by
  have hr : Lang (chr c! '"' ++ many quotedChar ++ chr c! '"') p w rest cs ↔ Lang (chr c! '"' ++ (many quotedChar ++ chr c! '"')) p w rest cs := by
    show Lang (.seq (.seq _ _) _) _ _ _ _ ↔ Lang (.seq _ (.seq _ _)) _ _ _ _
    simp only [lang_seq]
    constructor
    · rintro ⟨_, w3, _, c3, rfl, ⟨w1, w2, c1, c2, rfl, h1, h2, rfl⟩, h3, rfl⟩
      exact ⟨w1, w2 ++ w3, c1, c3 ++ c2, by simp, by simpa using h1, ⟨w2, w3, c2, c3, rfl, h2, by simpa [Nat.add_assoc] using h3, rfl⟩, by simp⟩
    · rintro ⟨w1, _, c1, _, rfl, h1, ⟨w2, w3, c2, c3, rfl, h2, h3, rfl⟩, rfl⟩
      exact ⟨w1 ++ w2, w3, c2 ++ c1, c3, by simp, ⟨w1, w2, c1, c2, rfl, by simpa using h1, h2, rfl⟩, by simpa [Nat.add_assoc] using h3, by simp⟩
  rw [hr]
  show Lang (.seq _ _) _ _ _ _ ↔ _
  rw [lang_seq]
  simp only [lang_chr, lang_literalTail]
  constructor
  · rintro ⟨_, t, _, _, rfl, ⟨rfl, rfl⟩, ⟨ht, rfl⟩, rfl⟩
    exact ⟨⟨t, rfl, ht⟩, rfl⟩
  · rintro ⟨⟨t, rfl, ht⟩, rfl⟩
    exact ⟨[c! '"'], t, [], [], rfl, ⟨rfl, rfl⟩, ⟨ht, rfl⟩, rfl⟩

theorem literal_unique {q q' r r' : Str} (h : IsLiteral q) (h' : IsLiteral q') (e : q ++ r = q' ++ r') : q = q' := by
  obtain ⟨t, rfl, ht⟩ := h
  obtain ⟨t', rfl, ht'⟩ := h'
  simp only [List.cons_append, List.cons.injEq, true_and] at e
  rw [literalTail_unique ht ht' e]

theorem literal_ne {q : Str} (h : IsLiteral q) : q ≠ [] := by obtain ⟨t, rfl, _⟩ := h; simp

/-- The quoted part and the rest, starting at a literal. -/
theorem first_quoted {q r : Str} (h : IsLiteral q) (p : Nat) (caps : Caps) :
    First (grp 2 (chr c! '"' ++ many quotedChar ++ chr c! '"')) ⟨p, q ++ r, caps⟩ ⟨p + q.length, r, (2, q) :: caps⟩ := by
  have := First.unique (r := grp 2 (chr c! '"' ++ many quotedChar ++ chr c! '"')) (p := p) (caps := caps) (cs := [(2, q)])
    (s := q ++ r) rfl (lang_grp.2 ⟨[], lang_literal.2 ⟨h, rfl⟩, rfl⟩) (by
      intro w' rest' cs' e hl
      obtain ⟨c, hl', rfl⟩ := lang_grp.1 hl
      obtain ⟨hq, rfl⟩ := lang_literal.1 hl'
      have := literal_unique h hq e
      subst this
      exact ⟨rfl, rfl⟩)
  exact this

theorem takeWhile_true (s : Str) : s.takeWhile (fun _ => true) = s := by
  induction s with
  | nil => rfl
  | cons c s ih => simp [ih]

theorem dropWhile_true (s : Str) : s.dropWhile (fun _ => true) = [] := by
  induction s with
  | nil => rfl
  | cons c s ih => simp [ih]

theorem findQuotes_first {s u q r : Str} (h : FirstLiteral s u q r) :
    ∃ st, findQuotes.search s = some st ∧ st.get 1 = u ∧ st.get 2 = q ∧ st.get 3 = r := by
  have hgrp3 : First (grp 3 (many any)) ⟨u.length + q.length, r, [(2, q), (1, u)]⟩
      ⟨u.length + q.length + r.length, [], [(3, r), (2, q), (1, u)]⟩ := by
    have := (First.many_cls (P := fun _ => true) (p := u.length + q.length) (s := r) (caps := [(2, q), (1, u)])).grp (n := 3)
    simp only [dropWhile_true, takeWhile_true, List.length_nil, Nat.sub_zero, List.take_length] at this
    exact this
  have hall : First findQuotes ⟨0, s, []⟩ ⟨u.length + q.length + r.length, [], [(3, r), (2, q), (1, u)]⟩ := by
    have hassoc : First findQuotes ⟨0, s, []⟩ ⟨u.length + q.length + r.length, [], [(3, r), (2, q), (1, u)]⟩ ↔
        First (grp 1 (star false any) ++ grp 2 (chr c! '"' ++ many quotedChar ++ chr c! '"') ++ grp 3 (many any)) ⟨0, s, []⟩
          ⟨u.length + q.length + r.length, [], [(3, r), (2, q), (1, u)]⟩ := Iff.rfl
    rw [hassoc]
    refine First.seq (st1 := ⟨u.length + q.length, r, [(2, q), (1, u)]⟩) ?_ hgrp3
    unfold First
    have hrun : (grp 1 (star false any)).run ⟨0, s, []⟩ =
        (List.range (s.length + 1)).map fun i => ⟨i, s.drop i, [(1, s.take i)]⟩ := by
      show (starRun false (fun st => (Re.cls fun _ => true).run st) s.length ⟨0, s, []⟩).map _ = _
      rw [starRun_cls false _ s.length ⟨0, s, []⟩ (Nat.le_refl _)]
      simp only [Bool.false_eq_true, ↓reduceIte, id, takeWhile_true, List.map_map]
      apply List.map_congr_left
      intro i hi
      have hi : i < s.length + 1 := List.mem_range.1 hi
      simp only [Function.comp_def, List.length_drop, Nat.zero_add]
      have : s.length - (s.length - i) = i := by omega
      rw [this]
    show (((grp 1 (star false any)).run ⟨0, s, []⟩).flatMap _).head? = _
    rw [hrun]
    have hlen : u.length < s.length + 1 := by rw [h.eq]; simp; omega
    have hsplit : List.range (s.length + 1) = List.range u.length ++ u.length :: (List.range (s.length - u.length)).map (u.length + 1 + ·) := by
      have : s.length + 1 = u.length + 1 + (s.length - u.length) := by omega
      rw [this, List.range_add, List.range_succ]
      simp
    rw [hsplit, List.map_append, List.map_cons]
    have hd : s.drop u.length = q ++ r := by rw [h.eq, List.append_assoc, List.drop_left' rfl]
    have ht : s.take u.length = u := by rw [h.eq, List.append_assoc, List.take_left' rfl]
    refine head_flatMap rfl ?_ (x := ⟨u.length, s.drop u.length, [(1, s.take u.length)]⟩) ?_
    · intro y hy
      obtain ⟨i, hi, rfl⟩ := List.mem_map.1 hy
      have hi : i < u.length := List.mem_range.1 hi
      apply run_nil_of_lang
      intro w rest cs e hl
      obtain ⟨c, hl', rfl⟩ := lang_grp.1 hl
      obtain ⟨hq, rfl⟩ := lang_literal.1 hl'
      simp only at e
      have := h.first (s.take i) w rest (by rw [List.append_assoc, ← e, List.take_append_drop]) hq
      rw [List.length_take] at this
      omega
    · rw [hd, ht]
      exact first_quoted h.lit _ _
  refine ⟨_, hall.search, rfl, rfl, rfl⟩

theorem findQuotes_none {s : Str} : findQuotes.search s = none ↔ NoLiteral s := by
  rw [← Option.not_isSome_iff_eq_none, search_isSome]
  constructor
  · intro h u q r e hq
    apply h
    refine ⟨[], s, [], [(3, r), (2, q), (1, u)], by simp, ?_⟩
    show Lang (.seq (.seq _ _) _) _ _ _ _
    rw [lang_seq]
    refine ⟨u ++ q, r, [(2, q), (1, u)], [(3, r)], by rw [e], ?_, ?_, rfl⟩
    · rw [lang_seq]
      refine ⟨u, q, [(1, u)], [(2, q)], rfl, lang_grp.2 ⟨[], ?_, rfl⟩, lang_grp.2 ⟨[], lang_literal.2 ⟨hq, rfl⟩, rfl⟩, rfl⟩
      show Lang (.star false (.cls _)) _ _ _ _
      rw [lang_star_cls]
      simp
    · exact lang_grp.2 ⟨[], lang_many_any.2 rfl, rfl⟩
  · rintro h ⟨u, w, rest, cs, e, hl⟩
    have hl : Lang (.seq (.seq _ _) _) _ _ _ _ := hl
    rw [lang_seq] at hl
    obtain ⟨w12, w3, c1, c2, rfl, hl, -, -⟩ := hl
    rw [lang_seq] at hl
    obtain ⟨w1, w2, c1, c2, rfl, -, hl, -⟩ := hl
    obtain ⟨c, hl', -⟩ := lang_grp.1 hl
    exact h (u ++ w1) w2 (w3 ++ rest) (by rw [e]; simp) (lang_literal.1 hl').1

theorem firstLiteral_exists (s : Str) (h : ¬ NoLiteral s) : ∃ u q r, FirstLiteral s u q r := by
  have key : ∀ n u q r, u.length ≤ n → s = u ++ q ++ r → IsLiteral q → ∃ u q r, FirstLiteral s u q r := by
    intro n
    induction n with
    | zero =>
      intro u q r hu e hq
      exact ⟨u, q, r, e, hq, fun u' _ _ _ _ => by omega⟩
    | succ n ih =>
      intro u q r hu e hq
      by_cases hx : ∃ u' q' r', s = u' ++ q' ++ r' ∧ IsLiteral q' ∧ u'.length < u.length
      · obtain ⟨u', q', r', e', hq', hl⟩ := hx
        exact ih u' q' r' (by omega) e' hq'
      · refine ⟨u, q, r, e, hq, fun u' q' r' e' hq' => ?_⟩
        by_cases hl : u'.length < u.length
        · exact absurd ⟨u', q', r', e', hq', hl⟩ hx
        · omega
  by_cases hx : ∃ u q r, s = u ++ q ++ r ∧ IsLiteral q
  · obtain ⟨u, q, r, e, hq⟩ := hx
    exact key _ u q r (Nat.le_refl _) e hq
  · exact absurd (fun u q r e hq => hx ⟨u, q, r, e, hq⟩) h

theorem firstLiteral_noLiteral {s u q r : Str} (h : FirstLiteral s u q r) : NoLiteral u := by
  intro a b c e hb
  have h1 := h.first a b (c ++ q ++ r) (by rw [h.eq, e]; simp) hb
  have h2 : b.length ≠ 0 := by simpa using literal_ne hb
  have h3 : u.length = a.length + b.length + c.length := by rw [e]; simp; omega
  omega

theorem firstLiteral_shorter {s u q r : Str} (h : FirstLiteral s u q r) : u.length < s.length ∧ r.length < s.length := by
  have : q.length ≠ 0 := by simpa using literal_ne h.lit
  rw [h.eq]; simp; omega

/-- The fuel does not matter. -/
theorem squashAux_fuel (n m : Nat) (s : Str) (b b' : Bool) (hn : s.length < n) (hm : s.length < m) :
    squashWithQuotesAux n s b = squashWithQuotesAux m s b' := by
  induction n generalizing m s b b' with
  | zero => omega
  | succ n ih =>
    cases m with
    | zero => omega
    | succ m =>
      unfold squashWithQuotesAux
      by_cases h : NoLiteral s
      · rw [findQuotes_none.2 h]
      · obtain ⟨u, q, r, h⟩ := firstLiteral_exists s h
        obtain ⟨st, h1, h2, h3, h4⟩ := findQuotes_first h
        have := firstLiteral_shorter h
        simp only [h1, h2, h3, h4]
        rw [ih m u b b' (by omega) (by omega), ih m r false false (by omega) (by omega)]

theorem squashQuotes_none {s : Str} (b : Bool) (h : NoLiteral s) :
    squashHorizontalWhitespaceWithQuotes s b = squashHorizontalWhitespace s true := by
  unfold squashHorizontalWhitespaceWithQuotes squashWithQuotesAux
  rw [findQuotes_none.2 h]

theorem squashQuotes_first {s u q r : Str} (b : Bool) (h : FirstLiteral s u q r) :
    squashHorizontalWhitespaceWithQuotes s b =
      squashHorizontalWhitespace u true ++ q ++ squashHorizontalWhitespaceWithQuotes r true := by
  have hs := firstLiteral_shorter h
  obtain ⟨st, h1, h2, h3, h4⟩ := findQuotes_first h
  unfold squashHorizontalWhitespaceWithQuotes
  conv => lhs; unfold squashWithQuotesAux
  simp only [h1, h2, h3, h4]
  rw [squashAux_fuel _ (u.length + 1) u b true hs.1 (by omega), squashAux_fuel _ (r.length + 1) r false true hs.2 (by omega)]
  have := squashQuotes_none true (firstLiteral_noLiteral h)
  unfold squashHorizontalWhitespaceWithQuotes at this
  rw [this]

end AsmParser
