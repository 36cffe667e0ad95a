/-
Helper lemmas: which of several possible matches the backtracking matcher reports.
-/
import Verif.Proofs.RegexLemmas

namespace AsmParser
open Re

theorem head_flatMap {α β : Type} {l pre post : List α} {x : α} {f : α → List β} {z : β} (h : l = pre ++ x :: post)
    (hp : ∀ y ∈ pre, f y = []) (hz : (f x).head? = some z) : (l.flatMap f).head? = some z := by
  subst h
  rw [List.flatMap_append, List.flatMap_cons]
  have : pre.flatMap f = [] := by rw [List.flatMap_eq_nil_iff]; exact hp
  rw [this, List.nil_append, List.head?_append, hz]
  rfl

/-- The first choice of `r` from `st`. -/
def First (r : Re) (st st' : MSt) : Prop := (r.run st).head? = some st'

theorem First.seq {a b : Re} {st st1 st2 : MSt} (h1 : First a st st1) (h2 : First b st1 st2) : First (a ++ b) st st2 := by
  unfold First at *
  show ((a.run st).flatMap fun st' => b.run st').head? = _
  cases h : a.run st with
  | nil => rw [h] at h1; simp at h1
  | cons x xs =>
    rw [h] at h1
    simp at h1
    subst h1
    exact head_flatMap (pre := []) (by simp; rfl) (by simp) h2

theorem First.grp {n : Nat} {a : Re} {st st' : MSt} (h : First a st st') :
    First (grp n a) st { st' with caps := (n, st.rest.take (st.rest.length - st'.rest.length)) :: st'.caps } := by
  unfold First at *
  simp only [Re.run, List.head?_map, h, Option.map_some]

theorem First.bol {st : MSt} (h : st.pos = 0) : First .bol st st := by simp [First, Re.run, h]
theorem First.eol {st : MSt} (h : st.rest = []) : First .eol st st := by simp [First, Re.run, h]
theorem First.cls {P : Byte → Bool} {p : Nat} {c : Byte} {s : Str} {caps : Caps} (h : P c = true) :
    First (.cls P) ⟨p, c :: s, caps⟩ ⟨p + 1, s, caps⟩ := by simp [First, Re.run, h]
theorem First.left {a b : Re} {st st' : MSt} (h : First a st st') : First (.alt a b) st st' := by
  unfold First at *
  simp [Re.run, h]
theorem First.right {a b : Re} {st st' : MSt} (h : First b st st') (hn : a.run st = []) : First (.alt a b) st st' := by
  unfold First at *
  simp [Re.run, h, hn]
theorem First.eps {st : MSt} : First .eps st st := by simp [First, Re.run]

theorem First.chr {p : Nat} {c : Byte} {s : Str} {caps : Caps} : First (Re.chr c) ⟨p, c :: s, caps⟩ ⟨p + 1, s, caps⟩ :=
  First.cls (by simp)

theorem First.lit {w : Str} {p : Nat} {s : Str} {caps : Caps} :
    First (Re.lit w) ⟨p, w ++ s, caps⟩ ⟨p + w.length, s, caps⟩ := by
  induction w generalizing p with
  | nil => exact First.eps
  | cons c w ih =>
    cases w with
    | nil => exact First.chr
    | cons d w =>
      have := (First.chr (p := p) (c := c) (s := d :: w ++ s) (caps := caps)).seq (ih (p := p + 1))
      have e : p + (c :: d :: w).length = p + 1 + (d :: w).length := by simp; omega
      rw [e]
      exact this

theorem starRun_cls (g : Bool) (P : Byte → Bool) (n : Nat) (st : MSt) (h : st.rest.length ≤ n) :
    starRun g (fun st => (Re.cls P).run st) n st =
      (if g then List.reverse else id)
        ((List.range ((st.rest.takeWhile P).length + 1)).map fun i => ⟨st.pos + i, st.rest.drop i, st.caps⟩) := by
  induction n generalizing st with
  | zero =>
    have : st.rest = [] := by simpa using h
    obtain ⟨p, s, c⟩ := st
    simp only at this
    subst this
    cases g <;> simp [starRun]
  | succ n ih =>
    obtain ⟨p, s, caps⟩ := st
    cases s with
    | nil => cases g <;> simp [starRun, Re.run]
    | cons c s =>
      by_cases hc : P c = true
      · have hr : (Re.cls P).run ⟨p, c :: s, caps⟩ = [⟨p + 1, s, caps⟩] := by simp [Re.run, hc]
        have := ih ⟨p + 1, s, caps⟩ (by simpa using h)
        have hm : (List.range ((s.takeWhile P).length + 1 + 1)).map (fun i => (⟨p + i, (c :: s).drop i, caps⟩ : MSt)) =
            ⟨p, c :: s, caps⟩ :: (List.range ((s.takeWhile P).length + 1)).map (fun i => ⟨p + 1 + i, s.drop i, caps⟩) := by
          rw [List.range_succ_eq_map, List.map_cons, List.map_map]
          simp only [Nat.add_zero, List.drop_zero, Function.comp_def, List.drop_succ_cons]
          congr 1
          apply List.map_congr_left
          intro a _
          rw [Nat.succ_eq_add_one, Nat.add_assoc, Nat.add_comm a 1]
        unfold starRun
        simp only [hr, List.length_cons, Nat.lt_add_one, decide_true, List.filter_cons_of_pos, List.filter_nil,
          List.flatMap_cons, List.flatMap_nil, List.append_nil, this, List.takeWhile_cons, hc, ↓reduceIte, hm]
        cases g <;> simp
      · have hr : (Re.cls P).run ⟨p, c :: s, caps⟩ = [] := by simp [Re.run, hc]
        unfold starRun
        simp only [hr, List.takeWhile_cons, hc]
        cases g <;> simp

/-- Greedy repetition of a class takes the longest run. -/
theorem First.many_cls {P : Byte → Bool} {p : Nat} {s : Str} {caps : Caps} :
    First (many (.cls P)) ⟨p, s, caps⟩ ⟨p + (s.takeWhile P).length, s.dropWhile P, caps⟩ := by
  unfold First
  have : (many (.cls P)).run ⟨p, s, caps⟩ = starRun true (fun st => (Re.cls P).run st) s.length ⟨p, s, caps⟩ := rfl
  rw [this, starRun_cls true P s.length ⟨p, s, caps⟩ (Nat.le_refl _)]
  simp only [↓reduceIte, List.range_succ, List.map_append, List.map_cons, List.map_nil, List.reverse_append,
    List.reverse_cons, List.reverse_nil, List.nil_append, List.cons_append, List.head?_cons, Option.some.injEq,
    MSt.mk.injEq, true_and, and_true]
  induction s with
  | nil => rfl
  | cons c s ih =>
    by_cases h : P c = true
    · simp only [List.takeWhile_cons, List.dropWhile_cons, h, ↓reduceIte, List.length_cons, List.drop_succ_cons]
      exact ih rfl
    · simp [h]

theorem many_cls_run_ne (P : Byte → Bool) (st : MSt) : (many (.cls P)).run st ≠ [] := by
  have := First.many_cls (P := P) (p := st.pos) (s := st.rest) (caps := st.caps)
  unfold First at this
  intro h
  rw [h] at this
  simp at this

theorem First.plus_cls {P : Byte → Bool} {p : Nat} {c : Byte} {s : Str} {caps : Caps} (h : P c = true) :
    First (plus (.cls P)) ⟨p, c :: s, caps⟩ ⟨p + ((c :: s).takeWhile P).length, (c :: s).dropWhile P, caps⟩ := by
  have := (First.cls (p := p) (s := s) (caps := caps) h).seq (First.many_cls (P := P))
  have e : (c :: s).takeWhile P = c :: s.takeWhile P := by simp [h]
  have e2 : (c :: s).dropWhile P = s.dropWhile P := by simp [h]
  rw [e, e2]
  have e3 : p + (c :: s.takeWhile P).length = p + 1 + (s.takeWhile P).length := by simp; omega
  rw [e3]
  exact this

theorem First.opt_some {a : Re} {st st' : MSt} (h : First a st st') : First (opt a) st st' := First.left h
theorem First.opt_none {a : Re} {st : MSt} (h : a.run st = []) : First (opt a) st st := First.right First.eps h

theorem First.search {r : Re} {s : Str} {st : MSt} (h : First r ⟨0, s, []⟩ st) : r.search s = some ⟨0, st.pos, st.caps⟩ := by
  unfold First at h
  unfold Re.search Re.searchFrom
  cases hr : r.run ⟨0, s, []⟩ with
  | nil => rw [hr] at h; simp at h
  | cons x xs => rw [hr] at h; simp at h; subst h; rfl

theorem First.fullMatch {r : Re} {s : Str} {st : MSt} (h : First r ⟨0, s, []⟩ st) (hr : st.rest = []) :
    r.fullMatch s = some ⟨0, st.pos, st.caps⟩ := by
  unfold First at h
  unfold Re.fullMatch
  cases hx : r.run ⟨0, s, []⟩ with
  | nil => rw [hx] at h; simp at h
  | cons x xs =>
    rw [hx] at h; simp at h; subst h
    simp [hr]

theorem run_nil_of_lang {r : Re} {st : MSt} (h : ∀ w rest cs, st.rest = w ++ rest → ¬ Lang r st.pos w rest cs) : r.run st = [] := by
  rw [List.eq_nil_iff_forall_not_mem]
  intro st' hst'
  obtain ⟨w, cs, h1, -, -, h4⟩ := (mem_run r st st').1 hst'
  exact h w st'.rest cs h1 h4

/-- If there is exactly one possible match, it is the first one. -/
theorem First.unique {r : Re} {p : Nat} {s w rest : Str} {caps cs : Caps} (e : s = w ++ rest) (h : Lang r p w rest cs)
    (hu : ∀ w' rest' cs', s = w' ++ rest' → Lang r p w' rest' cs' → w' = w ∧ cs' = cs) :
    First r ⟨p, s, caps⟩ ⟨p + w.length, rest, cs ++ caps⟩ := by
  subst e
  have hm : (⟨p + w.length, rest, cs ++ caps⟩ : MSt) ∈ r.run ⟨p, w ++ rest, caps⟩ :=
    (mem_run _ _ _).2 ⟨w, cs, rfl, rfl, rfl, h⟩
  unfold First
  cases hx : r.run ⟨p, w ++ rest, caps⟩ with
  | nil => rw [hx] at hm; simp at hm
  | cons x xs =>
    obtain ⟨w', cs', h1, h2, h3, h4⟩ := (mem_run r ⟨p, w ++ rest, caps⟩ x).1 (by rw [hx]; simp)
    simp only at h1 h2 h3 h4
    obtain ⟨rfl, rfl⟩ := hu w' x.rest cs' h1 h4
    obtain ⟨a, b, c⟩ := x
    simp only [List.append_cancel_left_eq] at h1 h2 h3
    subst h1 h2 h3
    rfl

end AsmParser
