/-
Binary mode on a listing that is put behind another one.
-/
import Verif.Proofs.Fewer
import Verif.Spec.Angles
import Verif.Spec.Apart

namespace AsmParser

variable {R : Reading} {drop : Str → Bool}

/-! ### What the first listing leaves behind -/

/-- The state behind the lines `ls`. -/
def carryAfter (R : Reading) (drop : Str → Bool) : Carry → List Str → Carry
  | c, [] => c
  | c, l :: ls => carryAfter R drop (c.next R drop (lineKind c.ign (l.filter (· != 13)))) ls

theorem happenings_append (xs ys : List Str) : ∀ c : Carry,
    happenings R drop c (xs ++ ys) = happenings R drop c xs ++ happenings R drop (carryAfter R drop c xs) ys := by
  induction xs with
  | nil => intro c; rfl
  | cons l xs ih => intro c; rw [List.cons_append, happenings, happenings, ih]; rfl

theorem Pages.all_lines (es : List (Bool × Option AsmLine)) : ∀ {b : Pages}, (b.all false es).full = false →
    (b.all false es).lines = b.lines ++ es.filterMap (·.2) := by
  induction es with
  | nil => intro b _; simp [Pages.all]
  | cons e es ih =>
    intro b h
    have hb := Pages.not_full_start h
    have hn := Pages.not_full_start (b := b.next false e.1 e.2) h
    have h' := ih (b := b.next false e.1 e.2) h
    have e0 : (b.all false (e :: es)) = (b.next false e.1 e.2).all false es := rfl
    rw [e0, h']
    obtain ⟨x, o⟩ := e
    have hl : (b.next false x o).lines = b.lines ++ o.toList := by
      simp only [Pages.next, hb, Bool.false_eq_true, ↓reduceIte] at hn ⊢
      have hc : (if x = true then b.close false else b).lines = b.lines := by
        split
        · simp [Pages.close, Pages.lines]
        · rfl
      generalize (if x = true then b.close false else b) = d at hn hc ⊢
      cases o with
      | none => simp [hc]
      | some l =>
        simp only [Pages.add] at hn ⊢
        split at hn
        · rename_i hlt
          rw [if_pos hlt]
          have e : ({ d with cur := d.cur ++ [l] } : Pages).lines = d.lines ++ [l] := by simp [Pages.lines]
          rw [e, hc]
          rfl
        · cases hn
    rw [hl]
    cases o <;> simp

/-- Few lines fit. -/
theorem Pages.all_short (es : List (Bool × Option AsmLine)) : ∀ {b : Pages}, b.full = false →
    b.lines.length + (es.filterMap (·.2)).length ≤ 5000 → (b.all false es).full = false := by
  induction es with
  | nil => intro b h _; exact h
  | cons e es ih =>
    intro b h hlen
    obtain ⟨x, o⟩ := e
    have hc : (if x = true then b.close false else b).lines = b.lines ∧ (if x = true then b.close false else b).full = false := by
      split
      · exact ⟨by simp [Pages.close, Pages.lines], by rw [Pages.close_full, h]⟩
      · exact ⟨rfl, h⟩
    have key : (b.next false x o).full = false ∧ (b.next false x o).lines = b.lines ++ o.toList := by
      simp only [Pages.next, h, Bool.false_eq_true, ↓reduceIte]
      generalize (if x = true then b.close false else b) = d at hc ⊢
      cases o with
      | none => simp [hc]
      | some l =>
        simp only [List.filterMap_cons, List.length_cons] at hlen
        simp only [Pages.add]
        rw [if_pos (by rw [hc.1]; omega)]
        have e : ({ d with cur := d.cur ++ [l] } : Pages).lines = d.lines ++ [l] := by simp [Pages.lines]
        exact ⟨hc.2, by rw [e, hc.1]; rfl⟩
    refine ih (b := b.next false x o) key.1 ?_
    rw [key.2]
    cases o <;> simp at hlen ⊢ <;> omega

/-! ### Open references -/

/-- The text goes on with a `>` or `+` before any `#`. -/
def Closing (r : Str) : Prop := ∃ x c r', r = x ++ c :: r' ∧ (c = c! '>' ∨ c = c! '+') ∧ c! '#' ∉ x

theorem AnglesClosed.tail {c : Byte} {r : Str} (h : AnglesClosed (c :: r)) : AnglesClosed r :=
  fun a b e => h (c :: a) b (by rw [e]; rfl)

theorem AnglesClosed.suffix {l r : Str} (h : AnglesClosed l) (hr : r <:+ l) : AnglesClosed r := by
  obtain ⟨x, rfl⟩ := hr
  exact fun a b e => h (x ++ a) b (by rw [e, List.append_assoc])

theorem AnglesClosed.filter {l : Str} (h : AnglesClosed l) : AnglesClosed (l.filter (· != 13)) := by
  intro a b e
  obtain ⟨l1, l2, rfl, -, e2⟩ := List.filter_eq_append_iff.1 e
  obtain ⟨l3, l4, rfl, -, -, e4⟩ := List.filter_eq_cons_iff.1 e2
  obtain ⟨x, c, r, rfl, hc, hx⟩ := h (l1 ++ l3) l4 (by simp)
  refine ⟨x.filter (· != 13), c, r.filter (· != 13), ?_, hc, fun hm => hx (List.mem_filter.1 hm).1⟩
  rw [← e4, List.filter_append, List.filter_cons_of_pos]
  rcases hc with rfl | rfl <;> decide

theorem readRefs_closed (r : Str) : ∀ (op : Option Nat) (t : Str), AnglesClosed r → (op = none ∨ Closing r) → (readRefs R drop op t r).2 = none := by
  induction r with
  | nil =>
    rintro op t - (rfl | ⟨x, c, r', e, -⟩)
    · rfl
    · simp at e
  | cons c r ih =>
    intro op t hr ho
    rw [readRefs.eq_def]
    dsimp only
    by_cases h1 : c = c! '#'
    · rw [if_pos h1]
      rcases ho with rfl | ⟨x, d, r', e, hd, hx⟩
      · rfl
      · cases x with
        | nil => cases e; rcases hd with rfl | rfl <;> exact absurd h1 (by decide)
        | cons y x => cases e; exact absurd (by simp [h1]) hx
    rw [if_neg h1]
    by_cases h2 : c = c! '<'
    · rw [if_pos h2]
      exact ih _ _ hr.tail (.inr (hr [] r (by rw [h2]; rfl)))
    rw [if_neg h2]
    cases op with
    | none => exact ih _ _ hr.tail (.inl rfl)
    | some k =>
      dsimp only
      split
      · exact ih _ _ hr.tail (.inl rfl)
      · rename_i h3
        rcases ho with h | ⟨x, d, r', e, hd, hx⟩
        · cases h
        · refine ih _ _ hr.tail (.inr ?_)
          cases x with
          | nil => cases e; exact absurd hd h3
          | cons y x => cases e; exact ⟨x, d, r', rfl, hd, fun hm => hx (by simp [hm])⟩

theorem readBytes_suffix (r : Str) : ∀ t, (readBytes t r).2.2 <:+ r := by
  induction r with
  | nil => intro t; simp [readBytes]
  | cons c r ih =>
    intro t
    rw [readBytes]
    have h : ∀ t, (readBytes t r).2.2 <:+ c :: r := fun t => (ih t).trans (List.suffix_cons c r)
    split
    · split
      · exact h _
      · split
        · exact List.suffix_cons c r
        · exact h _
    · split
      · exact List.nil_suffix
      · split
        · exact h _
        · exact List.suffix_cons c r

theorem readLineNo_code (r : Str) : ∀ (f n : Str) (a : Option Str) (b : List Str) (x y : Str), readLineNo f n r ≠ .code a b x y := by
  induction r with
  | nil => intros; simp [readLineNo]
  | cons c r ih =>
    intro f n a b x y
    rw [readLineNo]
    split
    · exact ih _ _ _ _ _ _
    · split
      · simp
      · exact ih _ _ _ _ _ _

theorem lineKind_rest {ign : Bool} {l : Str} {a : Option Str} {b : List Str} {x y : Str} (h : lineKind ign l = .code a b x y) : y <:+ l := by
  have hs : afterWord l <:+ l := (List.dropWhile_suffix _).trans (List.dropWhile_suffix _)
  revert h
  simp only [lineKind]
  cases hl : afterWord l with
  | nil => intro h; cases h; exact List.nil_suffix
  | cons d r =>
    have hr : r <:+ l := (List.suffix_cons d r).trans (hl ▸ hs)
    dsimp only
    split
    · unfold sourceLine
      split
      · intro h; cases h; exact List.nil_suffix
      · intro h; exact absurd h (readLineNo_code _ _ _ _ _ _ _)
    · split
      · split
        · intro h; cases h; exact hr
        · split
          · intro h; cases h; exact (readBytes_suffix _ _).trans hr
          · intro h; cases h
      · split
        · unfold sectionLine
          split <;> (intro h; cases h)
        · split <;> (intro h; cases h)

theorem carryAfter_opened (ls : List Str) (h : ∀ l ∈ ls, AnglesClosed l) : ∀ {c : Carry}, c.opened = none → (carryAfter R drop c ls).opened = none := by
  induction ls with
  | nil => exact fun h => h
  | cons l ls ih =>
    intro c hc
    refine ih (fun l hl => h l (by simp [hl])) ?_
    cases hk : lineKind c.ign (l.filter (· != 13)) with
    | code a b x y =>
      simp only [Carry.next, hc]
      exact readRefs_closed _ _ _ ((h l (by simp)).filter.suffix (lineKind_rest hk)) (.inl rfl)
    | header a t => simp only [Carry.next]; split <;> exact hc
    | _ => exact hc

/-- If no function is left out, none is being left out at the end. -/
theorem carryAfter_ign (ls : List Str) (h : ∀ l ∈ ls, ∀ a t, lineKind false (l.filter (· != 13)) = .header a t → drop (titleName t) = false) :
    ∀ {c : Carry}, c.ign = false → (carryAfter R drop c ls).ign = false := by
  induction ls with
  | nil => exact fun h => h
  | cons l ls ih =>
    intro c hc
    refine ih (fun l hl => h l (by simp [hl])) ?_
    rw [hc]
    cases hk : lineKind false (l.filter (· != 13)) with
    | header a t =>
      simp only [Carry.next]
      split
      · exact hc
      · exact h l (by simp) a t hk
    | _ => exact hc

/-! ### The lines of the second listing -/

/-- The states of a run over the second listing alone and of one over both. -/
structure ApartCarry (c c' : Carry) : Prop where
  ign : c'.ign = c.ign
  opened : c'.opened = c.opened
  source : c'.source = c.source ∨ c.source = {}
  sect : c'.sect = c.sect ∨ c.sect = []

theorem ApartCarry.next {c c' : Carry} (h : ApartCarry c c') (k : LineKind) : ApartCarry (c.next R drop k) (c'.next R drop k) := by
  obtain ⟨h1, h2, h3, h4⟩ := h
  cases k with
  | remark => exact ⟨h1, h2, h3, h4⟩
  | «section» n => exact ⟨h1, h2, h3, .inl rfl⟩
  | noSection t => exact ⟨h1, h2, h3, .inl rfl⟩
  | source a b e => exact ⟨h1, h2, .inl (by simp only [Carry.next, h1]), h4⟩
  | header a t =>
    simp only [Carry.next]
    split
    · exact ⟨h1, h2, h3, h4⟩
    · exact ⟨rfl, h2, h3, h4⟩
  | code a b x y => exact ⟨h1, by simp only [Carry.next, h2], h3, h4⟩

theorem ApartCarry.shown {c c' : Carry} (h : ApartCarry c c') (k : LineKind) :
    Each (fun l l' => Moved l l' ∧ l'.address = l.address) (c.shown R drop k).toList (c'.shown R drop k).toList := by
  obtain ⟨h1, h2, h3, h4⟩ := h
  cases k with
  | remark => exact .nil
  | «section» n => exact .nil
  | source a b e => exact .nil
  | noSection t =>
    simp only [Carry.shown, h1]
    split
    · exact .nil
    · exact .cons ⟨⟨rfl, h3, .inl rfl⟩, rfl⟩ .nil
  | header a t =>
    simp only [Carry.shown, h1]
    split
    · exact .nil
    · exact .cons ⟨⟨rfl, h3, h4⟩, rfl⟩ .nil
  | code a b x y =>
    simp only [Carry.shown, h1, h2]
    split
    · exact .nil
    · exact .cons ⟨⟨rfl, h3, h4⟩, rfl⟩ .nil

theorem Each.append {α β : Type} {P : α → β → Prop} {a c : List α} {b d : List β} (h1 : Each P a b) (h2 : Each P c d) :
    Each P (a ++ c) (b ++ d) := by
  induction h1 with
  | nil => exact h2
  | cons h _ ih => exact .cons h ih

theorem filterMap_snd_cons (x : Bool) (o : Option AsmLine) (es : List (Bool × Option AsmLine)) :
    ((x, o) :: es).filterMap (·.2) = o.toList ++ es.filterMap (·.2) := by
  cases o <;> simp

theorem ApartCarry.lines (ls : List Str) : ∀ {c c' : Carry}, ApartCarry c c' →
    Each (fun l l' => Moved l l' ∧ l'.address = l.address) ((happenings R drop c ls).filterMap (·.2))
      ((happenings R drop c' ls).filterMap (·.2)) := by
  induction ls with
  | nil => intro c c' _; exact .nil
  | cons l ls ih =>
    intro c c' h
    rw [happenings, happenings, filterMap_snd_cons, filterMap_snd_cons, h.ign]
    exact Each.append (h.shown _) (ih (h.next _))

/-- The second listing begins with a function. -/
theorem apart_lines {c : Carry} {l : Str} {ls : List Str} (ho : c.opened = none) (hb : (lineKind false (l.filter (· != 13))).begins = true) :
    ∃ first first' rest rest' : List AsmLine,
      (happenings R drop {} (l :: ls)).filterMap (·.2) = first ++ rest ∧ (happenings R drop c (l :: ls)).filterMap (·.2) = first' ++ rest' ∧
      Each (fun l l' => Moved l l' ∧ (l'.address = l.address ∨ c.ign = true ∧ l'.address = none)) first first' ∧ first.length ≤ 1 ∧
      Each (fun l l' => Moved l l' ∧ l'.address = l.address) rest rest' := by
  have hk : lineKind c.ign (l.filter (· != 13)) = lineKind false (l.filter (· != 13)) := by
    cases c.ign with
    | false => rfl
    | true =>
      rcases lineKind_ign (l.filter (· != 13)) with e | ⟨e, -⟩
      · exact e
      · rw [e] at hb; cases hb
  rw [happenings, happenings, filterMap_snd_cons, filterMap_snd_cons, hk]
  cases hl : lineKind false (l.filter (· != 13)) with
  | header a t =>
    have ht : t ≠ [] := by rw [hl] at hb; simpa [LineKind.begins] using hb
    refine ⟨_, _, _, _, rfl, rfl, ?_, ?_, ApartCarry.lines ls ⟨?_, ?_, .inr ?_, .inr ?_⟩⟩
    · simp only [Carry.shown]
      split
      · exact .nil
      · refine .cons ⟨⟨rfl, .inr rfl, .inr rfl⟩, ?_⟩ .nil
        cases c.ign <;> simp
    · cases (Carry.shown R drop {} (.header a t)) <;> simp
    all_goals simp [Carry.next, ht, ho]
  | _ => rw [hl] at hb; cases hb

end AsmParser
