/-
Lemmas for C97: texts that differ only in the number of blanks between words.
-/
import Verif.Spec.OneBlank
import Verif.Proofs.GraphLines
import Verif.Proofs.SourceDirs
import Verif.Proofs.References

namespace AsmParser

attribute [local irreducible] Re.search Re.fullMatch

/-- The texts have the same words, and blanks at the same places. -/
inductive Resp : Str → Str → Prop
  | nil : Resp [] []
  | char {c u v} : ¬ Blank c → Resp u v → Resp (c :: u) (c :: v)
  | gap {bs cs u v} : bs ≠ [] → Blanks bs → cs ≠ [] → Blanks cs → (∀ d ∈ u.head?, ¬ Blank d) → (∀ d ∈ v.head?, ¬ Blank d) →
      Resp u v → Resp (bs ++ u) (cs ++ v)

theorem Resp.symm {u v : Str} (h : Resp u v) : Resp v u := by
  induction h with
  | nil => exact .nil
  | char hc _ ih => exact .char hc ih
  | gap a b c d e f _ ih => exact .gap c d a b f e ih

theorem split_blanks (u : Str) : ∃ bs w, u = bs ++ w ∧ Blanks bs ∧ ∀ d ∈ w.head?, ¬ Blank d := by
  induction u with
  | nil => exact ⟨[], [], rfl, fun c hc => (List.not_mem_nil hc).elim, fun d hd => by cases hd⟩
  | cons c u ih =>
    by_cases hc : Blank c
    · obtain ⟨bs, w, rfl, h1, h2⟩ := ih
      refine ⟨c :: bs, w, rfl, fun d hd => ?_, h2⟩
      rcases List.mem_cons.1 hd with rfl | hd
      · exact hc
      · exact h1 d hd
    · refine ⟨[], c :: u, rfl, fun c hc => (List.not_mem_nil hc).elim, fun d hd => ?_⟩
      obtain rfl : c = d := by simpa using hd
      exact hc

theorem oneBlank_gap {bs w : Str} (hne : bs ≠ []) (hb : Blanks bs) (hw : ∀ d ∈ w.head?, ¬ Blank d) : oneBlank (bs ++ w) = 32 :: oneBlank w := by
  induction bs with
  | nil => exact absurd rfl hne
  | cons c bs ih =>
    have hc := hb c (by simp)
    rw [List.cons_append, oneBlank, if_pos hc]
    cases bs with
    | nil =>
      rw [if_neg]
      · rfl
      · rintro ⟨d, hd, h⟩
        exact hw d hd h
    | cons e bs =>
      rw [if_pos ⟨e, by simp, hb e (by simp)⟩]
      exact ih (by simp) fun d hd => hb d (List.mem_cons_of_mem _ hd)

theorem oneBlank_char {c : Byte} (hc : ¬ Blank c) (s : Str) : oneBlank (c :: s) = c :: oneBlank s := by
  rw [oneBlank, if_neg hc]

/-- Every text is empty, begins with another character than a blank, or with a run of blanks. -/
theorem run_cases (u : Str) : u = [] ∨ (∃ c w, ¬ Blank c ∧ u = c :: w) ∨
    ∃ bs w, bs ≠ [] ∧ Blanks bs ∧ (∀ d ∈ w.head?, ¬ Blank d) ∧ u = bs ++ w := by
  obtain ⟨bs, w, rfl, h1, h2⟩ := split_blanks u
  cases bs with
  | cons c bs => exact .inr (.inr ⟨c :: bs, w, by simp, h1, h2, rfl⟩)
  | nil =>
    cases w with
    | nil => exact .inl rfl
    | cons c w => exact .inr (.inl ⟨c, w, h2 c rfl, rfl⟩)

theorem Resp.of_oneBlank : ∀ (n : Nat) (u v : Str), u.length ≤ n → oneBlank u = oneBlank v → Resp u v := by
  intro n
  induction n with
  | zero =>
    intro u v hn h
    obtain rfl := List.length_eq_zero_iff.1 (Nat.le_zero.1 hn)
    rcases run_cases v with rfl | ⟨c, w, hc, rfl⟩ | ⟨bs, w, h1, h2, h3, rfl⟩
    · exact .nil
    · rw [oneBlank_char hc] at h; cases h
    · rw [oneBlank_gap h1 h2 h3] at h; cases h
  | succ n ih =>
    intro u v hn h
    have n32 : ∀ {c : Byte}, ¬ Blank c → c ≠ 32 := fun hc e => hc (.inl e)
    rcases run_cases u with rfl | ⟨c, w, hc, rfl⟩ | ⟨bs, w, h1, h2, h3, rfl⟩
    · rcases run_cases v with rfl | ⟨c, w, hc, rfl⟩ | ⟨bs, w, h1, h2, h3, rfl⟩
      · exact .nil
      · rw [oneBlank_char hc] at h; cases h
      · rw [oneBlank_gap h1 h2 h3] at h; cases h
    · rw [oneBlank_char hc] at h
      rcases run_cases v with rfl | ⟨c', w', hc', rfl⟩ | ⟨bs, w', h1, h2, h3, rfl⟩
      · cases h
      · rw [oneBlank_char hc', List.cons.injEq] at h
        obtain ⟨rfl, h⟩ := h
        exact .char hc (ih _ _ (by simpa using hn) h)
      · rw [oneBlank_gap h1 h2 h3, List.cons.injEq] at h
        exact absurd h.1 (n32 hc)
    · rw [oneBlank_gap h1 h2 h3] at h
      rcases run_cases v with rfl | ⟨c', w', hc', rfl⟩ | ⟨bs', w', h1', h2', h3', rfl⟩
      · cases h
      · rw [oneBlank_char hc', List.cons.injEq] at h
        exact absurd h.1.symm (n32 hc')
      · rw [oneBlank_gap h1' h2' h3', List.cons.injEq] at h
        refine .gap h1 h2 h1' h2' h3 h3' (ih _ _ ?_ h.2)
        have := List.length_pos_iff.2 h1
        rw [List.length_append] at hn
        omega

theorem Resp.oneBlank_eq {u v : Str} (h : Resp u v) : oneBlank u = oneBlank v := by
  induction h with
  | nil => rfl
  | char hc _ ih => rw [oneBlank_char hc, oneBlank_char hc, ih]
  | gap a b c d e f _ ih => rw [oneBlank_gap a b e, oneBlank_gap c d f, ih]

theorem resp_iff {u v : Str} : Resp u v ↔ oneBlank u = oneBlank v := ⟨Resp.oneBlank_eq, Resp.of_oneBlank _ _ _ (Nat.le_refl _)⟩

theorem Resp.refl (u : Str) : Resp u u := resp_iff.2 rfl

theorem Resp.head {u v : Str} (h : Resp u v) : (∀ d ∈ u.head?, ¬ Blank d) → u.head? = v.head? := by
  intro hu
  cases h with
  | nil => rfl
  | char hc _ => rfl
  | @gap bs cs u v a b c d e f _ =>
    cases bs with
    | nil => exact absurd rfl a
    | cons x bs => exact absurd (b x (by simp)) (hu x (by simp))

theorem Resp.nil_right {v : Str} (h : Resp [] v) : v = [] := by
  have := h.oneBlank_eq
  rcases run_cases v with rfl | ⟨c', w', hc', rfl⟩ | ⟨bs', w', h1', h2', h3', rfl⟩
  · rfl
  · rw [oneBlank_char hc'] at this; cases this
  · rw [oneBlank_gap h1' h2' h3'] at this; cases this

theorem Resp.nil_iff {u v : Str} (h : Resp u v) : u = [] ↔ v = [] := by
  constructor
  · rintro rfl; exact h.nil_right
  · rintro rfl; exact h.symm.nil_right

theorem Resp.mem {u v : Str} (h : Resp u v) {c : Byte} (hc : ¬ Blank c) : c ∈ u ↔ c ∈ v := by
  induction h with
  | nil => exact Iff.rfl
  | char _ _ ih => rw [List.mem_cons, List.mem_cons, ih]
  | gap a b a' b' e f _ ih =>
    rw [List.mem_append, List.mem_append, ih]
    constructor
    · rintro (h | h)
      · exact absurd (b c h) hc
      · exact .inr h
    · rintro (h | h)
      · exact absurd (b' c h) hc
      · exact .inr h

/-- If a predicate holds for all other characters than blanks, it also does so on the other side. -/
theorem Resp.blanks {u v : Str} (h : Resp u v) (hb : Blanks u) : Blanks v := by
  intro c hc
  by_cases hn : Blank c
  · exact hn
  · exact hb c ((h.mem hn).2 hc)

theorem Resp.solid {u v : Str} (h : Resp u v) (hn : ∀ c ∈ u, ¬ Blank c) : v = u := by
  induction h with
  | nil => rfl
  | char hc _ ih => rw [ih fun d hd => hn d (List.mem_cons_of_mem _ hd)]
  | @gap bs cs u v a b c d e f _ =>
    cases bs with
    | nil => exact absurd rfl a
    | cons x bs => exact absurd (b x (by simp)) (hn x (by simp))

/-- The boundary is not within a run of blanks. -/
def Edge (x y : Str) : Prop := (∀ d ∈ x.getLast?, ¬ Blank d) ∨ ∀ d ∈ y.head?, ¬ Blank d

theorem Resp.split {u v : Str} (h : Resp u v) : ∀ {x y : Str}, u = x ++ y → Edge x y → ∃ x' y', v = x' ++ y' ∧ Resp x x' ∧ Resp y y' := by
  induction h with
  | nil =>
    intro x y e _
    have := (List.append_eq_nil_iff.1 e.symm)
    obtain ⟨rfl, rfl⟩ := this
    exact ⟨[], [], rfl, .nil, .nil⟩
  | @char c u v hc hr ih =>
    intro x y e he
    cases x with
    | nil =>
      obtain rfl : c :: u = y := e
      exact ⟨[], c :: v, rfl, .nil, .char hc hr⟩
    | cons d x =>
      rw [List.cons_append, List.cons.injEq] at e
      obtain ⟨rfl, rfl⟩ := e
      have he' : Edge x y := by
        rcases he with he | he
        · cases x with
          | nil => exact .inl fun d hd => by cases hd
          | cons a x => exact .inl fun d hd => he d (by rw [List.getLast?_cons_cons]; exact hd)
        · exact .inr he
      obtain ⟨x', y', rfl, h1, h2⟩ := ih rfl he'
      exact ⟨c :: x', y', rfl, .char hc h1, h2⟩
  | @gap bs cs u v a b a' b' e f hr ih =>
    intro x y eq he
    rcases List.append_eq_append_iff.1 eq with ⟨x2, rfl, rfl⟩ | ⟨b2, rfl, rfl⟩
    · -- `x = bs ++ x2`
      have he' : Edge x2 y := by
        rcases he with he | he
        · cases x2 with
          | nil => exact .inl fun d hd => by cases hd
          | cons z x2 =>
            refine .inl fun d hd => he d ?_
            rw [List.getLast?_append, hd]; rfl
        · exact .inr he
      obtain ⟨x', y', rfl, h1, h2⟩ := ih rfl he'
      refine ⟨cs ++ x', y', by simp, .gap a b a' b' ?_ ?_ h1, h2⟩
      · intro d hd
        exact e d (by rw [List.head?_append, hd]; rfl)
      · intro d hd
        exact f d (by rw [List.head?_append, hd]; rfl)
    · -- the boundary is within the run
      cases b2 with
      | nil =>
        rw [List.append_nil] at *
        refine ⟨cs, v, rfl, ?_, by simpa using hr⟩
        have := Resp.gap a b a' b' (u := []) (v := []) (fun d hd => by cases hd) (fun d hd => by cases hd) .nil
        simpa using this
      | cons z b2 =>
        rcases List.eq_nil_or_concat x with rfl | ⟨x0, l, rfl⟩
        · refine ⟨[], cs ++ v, rfl, .nil, ?_⟩
          exact .gap a b a' b' e f hr
        · exfalso
          rw [List.concat_eq_append] at *
          rcases he with he | he
          · exact he l (by simp) (b l (by simp))
          · exact he z (by simp) (b z (by simp))

/-- A word in front of an edge. -/
theorem Resp.word {v w y : Str} (h : Resp (w ++ y) v) (hw : ∀ c ∈ w, ¬ Blank c) : ∃ y', v = w ++ y' ∧ Resp y y' := by
  have he : Edge w y := by
    refine .inl fun d hd => hw d ?_
    exact List.mem_of_getLast? hd
  obtain ⟨x', y', rfl, h1, h2⟩ := h.split rfl he
  obtain rfl := h1.solid hw
  exact ⟨y', rfl, h2⟩

/-- Blanks in front of something else. -/
theorem Resp.run {v bs y : Str} (h : Resp (bs ++ y) v) (hb : Blanks bs) (hy : ∀ d ∈ y.head?, ¬ Blank d) :
    ∃ bs' y', v = bs' ++ y' ∧ Blanks bs' ∧ (bs = [] ↔ bs' = []) ∧ Resp y y' := by
  obtain ⟨x', y', rfl, h1, h2⟩ := h.split rfl (.inr hy)
  exact ⟨x', y', rfl, h1.blanks hb, h1.nil_iff, h2⟩

theorem Resp.append {x x' y y' : Str} (h : Resp x x') (h' : Resp y y') (he : Edge x y) (he' : Edge x' y') : Resp (x ++ y) (x' ++ y') := by
  induction h with
  | nil => exact h'
  | @char c u v hc hr ih =>
    have cut : ∀ {c : Byte} {u y : Str}, Edge (c :: u) y → Edge u y := by
      intro c u y he
      rcases he with he | he
      · cases u with
        | nil => exact .inl fun d hd => by cases hd
        | cons a x => exact .inl fun d hd => he d (by rw [List.getLast?_cons_cons]; exact hd)
      · exact .inr he
    exact .char hc (ih (cut he) (cut he'))
  | @gap bs cs u v a b a' b' e f hr ih =>
    have cut : ∀ {c u y : Str}, u ≠ [] → Edge (c ++ u) y → Edge u y := by
      intro c u y hu he
      rcases he with he | he
      · refine .inl fun d hd => he d ?_
        rw [List.getLast?_append, hd]; rfl
      · exact .inr he
    rw [List.append_assoc, List.append_assoc]
    by_cases hu : u = []
    · subst hu
      obtain rfl := hr.nil_right
      have last : ∀ {bs y : Str}, bs ≠ [] → Blanks bs → Edge (bs ++ []) y → ∀ d ∈ y.head?, ¬ Blank d := by
        intro bs y hn hb he
        rcases he with he | he
        · rw [List.append_nil] at he
          exact absurd (hb _ (List.getLast_mem hn)) (he _ (List.getLast?_eq_some_getLast hn))
        · exact he
      exact .gap a b a' b' (last a b he) (last a' b' he') h'
    · have hv : v ≠ [] := fun h => hu (hr.nil_iff.2 h)
      refine .gap a b a' b' ?_ ?_ (ih (cut hu he) (cut hv he'))
      · intro d hd
        obtain ⟨z, u, rfl⟩ := List.exists_cons_of_ne_nil hu
        exact e d hd
      · intro d hd
        obtain ⟨z, u, rfl⟩ := List.exists_cons_of_ne_nil hv
        exact f d hd

end AsmParser
