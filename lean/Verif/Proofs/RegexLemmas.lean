/-
Helper lemmas: a declarative reading of the backtracking regular-expression matcher.
`Lang r pos w rest cs`: starting at offset `pos`, `r` can match `w` when `rest` follows, recording the
captures `cs` (most recent first).
-/
import Verif.Model.Regexes

namespace AsmParser
open Re

/-- Zero or more non-empty iterations. -/
inductive StarLang (R : Nat → Str → Str → Caps → Prop) : Nat → Str → Str → Caps → Prop
  | nil {p rest} : StarLang R p [] rest []
  | cons {p w1 w2 rest c1 c2} : w1 ≠ [] → R p w1 (w2 ++ rest) c1 → StarLang R (p + w1.length) w2 rest c2 →
      StarLang R p (w1 ++ w2) rest (c2 ++ c1)

/-- Declarative matching. -/
def Lang : Re → Nat → Str → Str → Caps → Prop
  | .eps, _, w, _, cs => w = [] ∧ cs = []
  | .cls P, _, w, _, cs => (∃ b, w = [b] ∧ P b = true) ∧ cs = []
  | .seq a b, p, w, rest, cs => ∃ w1 w2 c1 c2, w = w1 ++ w2 ∧ Lang a p w1 (w2 ++ rest) c1 ∧
      Lang b (p + w1.length) w2 rest c2 ∧ cs = c2 ++ c1
  | .alt a b, p, w, rest, cs => Lang a p w rest cs ∨ Lang b p w rest cs
  | .star _ a, p, w, rest, cs => StarLang (Lang a) p w rest cs
  | .grp n a, p, w, rest, cs => ∃ c, Lang a p w rest c ∧ cs = (n, w) :: c
  | .bol, p, w, _, cs => w = [] ∧ p = 0 ∧ cs = []
  | .eol, _, w, rest, cs => w = [] ∧ rest = [] ∧ cs = []

theorem mem_starRun {R : Nat → Str → Str → Caps → Prop} {g : Bool} {f : MSt → List MSt}
    (hf : ∀ st st', st' ∈ f st ↔ ∃ w cs, st.rest = w ++ st'.rest ∧ st'.pos = st.pos + w.length ∧
      st'.caps = cs ++ st.caps ∧ R st.pos w st'.rest cs) (n : Nat) (st st' : MSt) (hn : st.rest.length ≤ n) :
    st' ∈ starRun g f n st ↔ ∃ w cs, st.rest = w ++ st'.rest ∧ st'.pos = st.pos + w.length ∧
      st'.caps = cs ++ st.caps ∧ StarLang R st.pos w st'.rest cs := by
  induction n generalizing st with
  | zero =>
    have hr : st.rest = [] := by simpa using hn
    simp only [starRun, List.mem_singleton]
    constructor
    · rintro rfl; exact ⟨[], [], rfl, rfl, rfl, .nil⟩
    · rintro ⟨w, cs, h1, h2, h3, h4⟩
      rw [hr] at h1
      have h1' := h1.symm
      simp only [List.append_eq_nil_iff] at h1'
      obtain ⟨rfl, e⟩ := h1'
      generalize hw : ([] : Str) = w0 at h4
      cases h4 with
      | nil =>
        obtain ⟨a, b, c⟩ := st
        obtain ⟨a', b', c'⟩ := st'
        simp only [List.length_nil, Nat.add_zero, List.nil_append] at h2 h3 e hr
        simp only [h2, h3, e, hr]
      | cons hne _ _ =>
        simp at hw; exact absurd hw.1 hne
  | succ n ih =>
    have step : st' ∈ starRun g f (n + 1) st ↔ st' = st ∨
        ∃ st1 ∈ f st, st1.rest.length < st.rest.length ∧ st' ∈ starRun g f n st1 := by
      rw [starRun]
      cases g <;> simp [and_assoc, or_comm]
    rw [step]
    constructor
    · rintro (rfl | ⟨st1, h1, h2, h3⟩)
      · exact ⟨[], [], rfl, rfl, rfl, .nil⟩
      · obtain ⟨w1, c1, a1, a2, a3, a4⟩ := (hf _ _).1 h1
        obtain ⟨w2, c2, b1, b2, b3, b4⟩ := (ih st1 (by omega)).1 h3
        refine ⟨w1 ++ w2, c2 ++ c1, by rw [a1, b1]; simp, by rw [b2, a2]; simp; omega, by rw [b3, a3]; simp, ?_⟩
        refine .cons ?_ (by rw [← b1]; exact a4) (by rw [← a2]; exact b4)
        rintro rfl
        simp at a1; rw [a1] at h2; omega
    · rintro ⟨w, cs, h1, h2, h3, h4⟩
      generalize hp : st.pos = p at h4
      generalize hrr : st'.rest = r at h4
      cases h4 with
      | nil => left; cases st; cases st'; simp_all
      | @cons _ w1 w2 _ c1 c2 hne hR hS =>
        right
        subst hrr hp
        refine ⟨⟨st.pos + w1.length, w2 ++ st'.rest, c1 ++ st.caps⟩, ?_, ?_, ?_⟩
        · rw [hf]; exact ⟨w1, c1, by rw [h1]; simp, rfl, rfl, hR⟩
        · rw [h1]
          have := List.length_pos_iff.2 hne
          simp; omega
        · rw [ih _ (by rw [h1] at hn; have := List.length_pos_iff.2 hne; simp at hn ⊢; omega)]
          exact ⟨w2, c2, rfl, by rw [h2]; simp; omega, by rw [h3]; simp, hS⟩

/-- The matcher computes exactly the declarative relation. -/
theorem mem_run (r : Re) (st st' : MSt) :
    st' ∈ r.run st ↔ ∃ w cs, st.rest = w ++ st'.rest ∧ st'.pos = st.pos + w.length ∧
      st'.caps = cs ++ st.caps ∧ Lang r st.pos w st'.rest cs := by
  induction r generalizing st st' with
  | eps =>
    simp only [Re.run, List.mem_singleton, Lang]
    constructor
    · rintro rfl; exact ⟨[], [], by simp⟩
    · rintro ⟨w, cs, h1, h2, h3, rfl, rfl⟩; cases st; cases st'; simp_all
  | cls P =>
    unfold Re.run
    cases hr : st.rest with
    | nil =>
      simp only [List.not_mem_nil, false_iff, not_exists, Lang]
      rintro w cs ⟨h1, -, -, ⟨b, rfl, -⟩, -⟩
      simp at h1
    | cons c cs =>
      simp only [Lang]
      split
      · rename_i hP
        simp only [List.mem_singleton]
        constructor
        · rintro rfl; exact ⟨[c], [], by simp, by simp, by simp, ⟨c, rfl, hP⟩, rfl⟩
        · rintro ⟨w, cs', h1, h2, h3, ⟨b, rfl, hb⟩, rfl⟩
          cases st'; simp_all
      · rename_i hP
        simp only [List.not_mem_nil, false_iff, not_exists]
        rintro w cs' ⟨h1, -, -, ⟨b, rfl, hb⟩, -⟩
        simp at h1
        rw [h1.1] at hP; exact hP hb
  | seq a b iha ihb =>
    simp only [Re.run, List.mem_flatMap, iha, ihb, Lang]
    constructor
    · rintro ⟨st1, ⟨w1, c1, a1, a2, a3, a4⟩, w2, c2, b1, b2, b3, b4⟩
      refine ⟨w1 ++ w2, c2 ++ c1, by rw [a1, b1]; simp, by rw [b2, a2]; simp; omega, by rw [b3, a3]; simp,
        w1, w2, c1, c2, rfl, by rw [← b1]; exact a4, by rw [← a2]; exact b4, rfl⟩
    · rintro ⟨w, cs, h1, h2, h3, w1, w2, c1, c2, rfl, h4, h5, rfl⟩
      refine ⟨⟨st.pos + w1.length, w2 ++ st'.rest, c1 ++ st.caps⟩,
        ⟨w1, c1, by rw [h1]; simp, rfl, rfl, h4⟩, w2, c2, rfl, by rw [h2]; simp; omega, by rw [h3]; simp, h5⟩
  | alt a b iha ihb =>
    simp only [Re.run, List.mem_append, iha, ihb, Lang]
    constructor
    · rintro (⟨w, cs, h1, h2, h3, h4⟩ | ⟨w, cs, h1, h2, h3, h4⟩)
      · exact ⟨w, cs, h1, h2, h3, .inl h4⟩
      · exact ⟨w, cs, h1, h2, h3, .inr h4⟩
    · rintro ⟨w, cs, h1, h2, h3, h4 | h4⟩
      · exact .inl ⟨w, cs, h1, h2, h3, h4⟩
      · exact .inr ⟨w, cs, h1, h2, h3, h4⟩
  | star g a ih =>
    simp only [Re.run, Lang]
    exact mem_starRun (fun st st' => ih st st') _ _ _ (Nat.le_refl _)
  | grp n a ih =>
    simp only [Re.run, List.mem_map, ih, Lang]
    constructor
    · rintro ⟨st1, ⟨w, c, h1, h2, h3, h4⟩, rfl⟩
      refine ⟨w, (n, w) :: c, h1, h2, ?_, c, h4, rfl⟩
      simp [h1, h3]
    · rintro ⟨w, cs, h1, h2, h3, c, h4, rfl⟩
      refine ⟨⟨st'.pos, st'.rest, c ++ st.caps⟩, ⟨w, c, h1, h2, rfl, h4⟩, ?_⟩
      cases st'; simp_all
  | bol =>
    simp only [Re.run, Lang]
    split
    · rename_i h
      simp only [List.mem_singleton]
      constructor
      · rintro rfl; exact ⟨[], [], by simp [h]⟩
      · rintro ⟨w, cs, h1, h2, h3, rfl, -, rfl⟩; cases st; cases st'; simp_all
    · rename_i h
      simp only [List.not_mem_nil, false_iff, not_exists]
      rintro w cs ⟨-, -, -, -, h', -⟩; exact h h'
  | eol =>
    simp only [Re.run, Lang]
    split
    · rename_i h
      simp only [List.mem_singleton]
      constructor
      · rintro rfl; exact ⟨[], [], by simpa using h⟩
      · rintro ⟨w, cs, h1, h2, h3, rfl, -, rfl⟩; cases st; cases st'; simp_all
    · rename_i h
      simp only [List.not_mem_nil, false_iff, not_exists]
      rintro w cs ⟨h1, -, -, rfl, h', -⟩
      simp [h1, h'] at h

/-! ### Unfolding `Lang` -/

@[simp] theorem app_eq_seq (a b : Re) : a ++ b = Re.seq a b := rfl

theorem lang_eps {p w rest cs} : Lang .eps p w rest cs ↔ w = [] ∧ cs = [] := Iff.rfl
theorem lang_cls {P p w rest cs} : Lang (.cls P) p w rest cs ↔ (∃ b, w = [b] ∧ P b = true) ∧ cs = [] := Iff.rfl
theorem lang_seq {a b p w rest cs} : Lang (.seq a b) p w rest cs ↔ ∃ w1 w2 c1 c2, w = w1 ++ w2 ∧
    Lang a p w1 (w2 ++ rest) c1 ∧ Lang b (p + w1.length) w2 rest c2 ∧ cs = c2 ++ c1 := Iff.rfl
theorem lang_alt {a b p w rest cs} : Lang (.alt a b) p w rest cs ↔ Lang a p w rest cs ∨ Lang b p w rest cs := Iff.rfl
theorem lang_grp {n a p w rest cs} : Lang (.grp n a) p w rest cs ↔ ∃ c, Lang a p w rest c ∧ cs = (n, w) :: c := Iff.rfl
theorem lang_bol {p w rest cs} : Lang .bol p w rest cs ↔ w = [] ∧ p = 0 ∧ cs = [] := Iff.rfl
theorem lang_eol {p w rest cs} : Lang .eol p w rest cs ↔ w = [] ∧ rest = [] ∧ cs = [] := Iff.rfl

theorem lang_star_cls {g P p w rest cs} :
    Lang (.star g (.cls P)) p w rest cs ↔ (∀ b ∈ w, P b = true) ∧ cs = [] := by
  constructor
  · intro h
    change StarLang _ p w rest cs at h
    induction h with
    | nil => simp
    | cons _ h1 _ ih =>
      obtain ⟨⟨b, rfl, hb⟩, rfl⟩ := h1
      obtain ⟨i1, rfl⟩ := ih
      refine ⟨?_, rfl⟩
      intro b' hb'
      simp only [List.singleton_append, List.mem_cons] at hb'
      rcases hb' with rfl | hb'
      · exact hb
      · exact i1 _ hb'
  · rintro ⟨h, rfl⟩
    show StarLang _ p w rest []
    induction w generalizing p with
    | nil => exact .nil
    | cons b w ih =>
      exact StarLang.cons (w1 := [b]) (w2 := w) (c1 := []) (c2 := []) (by simp)
        ⟨⟨b, rfl, h b (by simp)⟩, rfl⟩ (ih (fun b hb => h b (by simp [hb])))

theorem lang_chr {c p w rest cs} : Lang (chr c) p w rest cs ↔ w = [c] ∧ cs = [] := by
  simp only [chr, lang_cls, beq_iff_eq]
  constructor
  · rintro ⟨⟨b, rfl, rfl⟩, rfl⟩; exact ⟨rfl, rfl⟩
  · rintro ⟨rfl, rfl⟩; exact ⟨⟨c, rfl, rfl⟩, rfl⟩

theorem lang_lit {s p w rest cs} : Lang (lit s) p w rest cs ↔ w = s ∧ cs = [] := by
  induction s generalizing p w cs with
  | nil => exact Iff.rfl
  | cons c s ih =>
    cases s with
    | nil => exact lang_chr
    | cons d s =>
      unfold lit
      simp only [lang_seq, lang_chr, ih]
      constructor
      · rintro ⟨w1, w2, c1, c2, rfl, ⟨rfl, rfl⟩, ⟨rfl, rfl⟩, rfl⟩; exact ⟨rfl, rfl⟩
      · rintro ⟨rfl, rfl⟩; exact ⟨[c], d :: s, [], [], rfl, ⟨rfl, rfl⟩, ⟨rfl, rfl⟩, rfl⟩

theorem lang_any {p w rest cs} : Lang any p w rest cs ↔ (∃ b, w = [b]) ∧ cs = [] := by
  simp [any, lang_cls]

theorem lang_opt {a p w rest cs} : Lang (opt a) p w rest cs ↔ Lang a p w rest cs ∨ w = [] ∧ cs = [] := Iff.rfl

theorem lang_many_cls {P p w rest cs} :
    Lang (many (.cls P)) p w rest cs ↔ (∀ b ∈ w, P b = true) ∧ cs = [] := lang_star_cls

theorem lang_many_any {p w rest cs} : Lang (many any) p w rest cs ↔ cs = [] := by
  simp [any, lang_many_cls]

theorem lang_plus_cls {P p w rest cs} :
    Lang (plus (.cls P)) p w rest cs ↔ w ≠ [] ∧ (∀ b ∈ w, P b = true) ∧ cs = [] := by
  unfold plus
  simp only [lang_seq, lang_cls, lang_star_cls]
  constructor
  · rintro ⟨w1, w2, c1, c2, rfl, ⟨⟨b, rfl, hb⟩, rfl⟩, ⟨h, rfl⟩, rfl⟩
    refine ⟨by simp, ?_, rfl⟩
    intro b' hb'
    simp only [List.singleton_append, List.mem_cons] at hb'
    rcases hb' with rfl | hb'
    · exact hb
    · exact h _ hb'
  · rintro ⟨hne, h, rfl⟩
    cases w with
    | nil => exact absurd rfl hne
    | cons b w =>
      exact ⟨[b], w, [], [], rfl, ⟨⟨b, rfl, h b (by simp)⟩, rfl⟩, ⟨fun b hb => h b (by simp [hb]), rfl⟩, rfl⟩

theorem lang_hs {p w rest cs} : Lang hs p w rest cs ↔ (∀ b ∈ w, isH b = true) ∧ cs = [] := lang_many_cls
theorem lang_hs1 {p w rest cs} : Lang hs1 p w rest cs ↔ w ≠ [] ∧ (∀ b ∈ w, isH b = true) ∧ cs = [] := lang_plus_cls
theorem lang_digits {p w rest cs} :
    Lang digits p w rest cs ↔ w ≠ [] ∧ (∀ b ∈ w, isDigit b = true) ∧ cs = [] := lang_plus_cls

theorem lang_oneOf {ss : List Str} {p w rest cs} : Lang (oneOf ss) p w rest cs ↔ w ∈ ss ∧ cs = [] := by
  induction ss with
  | nil => simp [oneOf, lang_cls]
  | cons s ss ih =>
    cases ss with
    | nil => simp [oneOf, lang_lit]
    | cons t ss =>
      unfold oneOf
      rw [lang_alt, ih, lang_lit]
      simp only [List.mem_cons]
      constructor
      · rintro (⟨h, e⟩ | ⟨h, e⟩)
        · exact ⟨.inl h, e⟩
        · exact ⟨.inr h, e⟩
      · rintro ⟨h | h, e⟩
        · exact .inl ⟨h, e⟩
        · exact .inr ⟨h, e⟩

/-! ### The entry points -/

theorem fullMatch_mem {r : Re} {s : Str} {m : Match} (h : r.fullMatch s = some m) :
    Lang r 0 s [] m.caps ∧ m.start = 0 ∧ m.stop = s.length := by
  unfold Re.fullMatch at h
  simp only [Option.map_eq_some_iff] at h
  obtain ⟨st, h1, rfl⟩ := h
  have h2 := List.find?_some h1
  have h3 := (mem_run _ _ _).1 (List.mem_of_find?_eq_some h1)
  obtain ⟨w, cs, a1, a2, a3, a4⟩ := h3
  have h2 : st.rest = [] := by simpa using h2
  simp only [h2, List.append_nil] at a1 a3 a4
  subst a1
  rw [a3]
  exact ⟨a4, rfl, by simpa using a2⟩

theorem fullMatch_isSome {r : Re} {s : Str} : (r.fullMatch s).isSome = true ↔ ∃ cs, Lang r 0 s [] cs := by
  constructor
  · intro h
    obtain ⟨m, hm⟩ := Option.isSome_iff_exists.1 h
    exact ⟨_, (fullMatch_mem hm).1⟩
  · rintro ⟨cs, h⟩
    unfold Re.fullMatch
    rw [Option.isSome_map, List.find?_isSome]
    exact ⟨⟨s.length, [], cs⟩, (mem_run _ _ _).2 ⟨s, cs, by simp, by simp, by simp, h⟩, rfl⟩

theorem searchFrom_mem {r : Re} {s : Str} {pos : Nat} {m : Match} (h : r.searchFrom pos s = some m) :
    ∃ u w rest, s = u ++ w ++ rest ∧ m.start = pos + u.length ∧ m.stop = m.start + w.length ∧
      Lang r m.start w rest m.caps ∧
      ∀ u' w' rest' cs, s = u' ++ w' ++ rest' → Lang r (pos + u'.length) w' rest' cs → u.length ≤ u'.length := by
  induction s generalizing pos with
  | nil =>
    unfold Re.searchFrom at h
    split at h
    · rename_i st l hr
      cases h
      obtain ⟨w, cs, a1, a2, a3, a4⟩ := (mem_run r ⟨pos, [], []⟩ st).1 (by rw [hr]; simp)
      refine ⟨[], w, st.rest, by simpa using a1, rfl, by simpa using a2, ?_, by simp⟩
      simp only [List.append_nil] at a3
      rw [a3]; exact a4
    · simp at h
  | cons c cs ih =>
    unfold Re.searchFrom at h
    split at h
    · rename_i st l hr
      cases h
      obtain ⟨w, cs', a1, a2, a3, a4⟩ := (mem_run r ⟨pos, c :: cs, []⟩ st).1 (by rw [hr]; simp)
      refine ⟨[], w, st.rest, by simpa using a1, rfl, by simpa using a2, ?_, by simp⟩
      simp only [List.append_nil] at a3
      rw [a3]; exact a4
    · rename_i hr
      simp only at h
      obtain ⟨u, w, rest, h1, h2, h3, h4, h5⟩ := ih h
      refine ⟨c :: u, w, rest, by rw [h1]; simp, by rw [h2]; simp; omega, h3, h4, ?_⟩
      intro u' w' rest' cs' e hl
      cases u' with
      | nil =>
        exfalso
        have : (⟨pos + w'.length, rest', cs'⟩ : MSt) ∈ r.run ⟨pos, c :: cs, []⟩ :=
          (mem_run _ _ _).2 ⟨w', cs', by simpa using e, rfl, by simp, by simpa using hl⟩
        rw [hr] at this; simp at this
      | cons c' u' =>
        simp only [List.cons_append, List.cons.injEq] at e
        have := h5 u' w' rest' cs' e.2 (by
          have : pos + (c' :: u').length = pos + 1 + u'.length := by simp; omega
          rw [← this]; exact hl)
        simp; omega

theorem searchFrom_isSome {r : Re} {s : Str} {pos : Nat} :
    (r.searchFrom pos s).isSome = true ↔ ∃ u w rest cs, s = u ++ w ++ rest ∧ Lang r (pos + u.length) w rest cs := by
  constructor
  · intro h
    obtain ⟨m, hm⟩ := Option.isSome_iff_exists.1 h
    obtain ⟨u, w, rest, h1, h2, h3, h4, -⟩ := searchFrom_mem hm
    exact ⟨u, w, rest, _, h1, by rw [← h2]; exact h4⟩
  · rintro ⟨u, w, rest, cs, rfl, h⟩
    induction u generalizing pos with
    | nil =>
      have : (⟨pos + w.length, rest, cs⟩ : MSt) ∈ r.run ⟨pos, [] ++ w ++ rest, []⟩ :=
        (mem_run _ _ _).2 ⟨w, cs, by simp, rfl, by simp, by simpa using h⟩
      unfold Re.searchFrom
      split
      · rfl
      · rename_i hr; rw [hr] at this; simp at this
    | cons c u ih =>
      unfold Re.searchFrom
      split
      · rfl
      · simp only [List.cons_append]
        exact ih (by
          have : pos + (c :: u).length = pos + 1 + u.length := by simp; omega
          rw [← this]; exact h)

theorem search_isSome {r : Re} {s : Str} :
    (r.search s).isSome = true ↔ ∃ u w rest cs, s = u ++ w ++ rest ∧ Lang r u.length w rest cs := by
  unfold Re.search
  rw [searchFrom_isSome]; simp

theorem search_mem {r : Re} {s : Str} {m : Match} (h : r.search s = some m) :
    ∃ u w rest, s = u ++ w ++ rest ∧ m.start = u.length ∧ m.stop = m.start + w.length ∧
      Lang r m.start w rest m.caps ∧
      ∀ u' w' rest' cs, s = u' ++ w' ++ rest' → Lang r u'.length w' rest' cs → u.length ≤ u'.length := by
  have := searchFrom_mem h
  simpa using this

/-- A search anchored at the beginning. -/
theorem search_bol_isSome {r : Re} {s : Str} :
    ((Re.seq .bol r).search s).isSome = true ↔ ∃ w rest cs, s = w ++ rest ∧ Lang r 0 w rest cs := by
  rw [search_isSome]
  simp only [lang_seq, lang_bol]
  constructor
  · rintro ⟨u, w, rest, cs, rfl, w1, w2, c1, c2, rfl, ⟨rfl, h0, rfl⟩, h, rfl⟩
    have : u = [] := by simpa using h0
    subst this
    exact ⟨w2, rest, c2, by simp, by simpa using h⟩
  · rintro ⟨w, rest, cs, rfl, h⟩
    exact ⟨[], w, rest, cs, by simp, [], w, [], cs, by simp, ⟨rfl, rfl, rfl⟩, by simpa using h, by simp⟩

theorem search_bol_mem {r : Re} {s : Str} {m : Match} (h : (Re.seq .bol r).search s = some m) :
    ∃ w rest, s = w ++ rest ∧ m.start = 0 ∧ m.stop = w.length ∧ Lang r 0 w rest m.caps := by
  obtain ⟨u, w, rest, h1, h2, h3, h4, -⟩ := search_mem h
  rw [lang_seq] at h4
  obtain ⟨w1, w2, c1, c2, rfl, ⟨rfl, h0, rfl⟩, h, e⟩ := h4
  have hu : u = [] := by rw [h2] at h0; simpa using h0
  subst hu
  refine ⟨w2, rest, by simpa using h1, by simpa using h2, by rw [h3, h2]; simp, ?_⟩
  rw [e]
  have h0' : m.start = 0 := h0
  rw [h0'] at h
  simpa using h

end AsmParser
