/-
Helper lemmas: with the filter `directives`, directives can be left out of the input.
-/
import Verif.Proofs.Pieces
import Verif.Spec.Silent

namespace AsmParser

attribute [local irreducible] Re.search Re.fullMatch

/-- A simple form of such lines. -/
theorem onlyDirective {f : Filter} {l : Str} (h1 : Directive l) (h2 : ∀ c ∈ [c! ':', c! '=', c! '('], c ∉ l)
    (h3 : ∀ kw ∈ dataDirectives, ¬ kw <+: ink l) (h4 : ¬ Contains (ink l) b! ".inst") : OnlyDirective f l := by
  rintro t inl ⟨ws, sp, t', g1, g4, g5, -, g6⟩
  have hink : ink t = ink l := by
    rw [g6, ink_cleaned]
    have := congrArg ink g4
    rw [ink_append, ink_append, ink_blanks g1, ink_spaces g5] at this
    exact this.symm
  have no : ∀ c, c ∈ [c! ':', c! '=', c! '('] → c ∉ t := by
    intro c hc hm
    have : c ∈ ink t := List.mem_filter.2 ⟨hm, by
      simp only [List.mem_cons, List.not_mem_nil, or_false] at hc
      rcases hc with rfl | rfl | rfl <;> decide⟩
    rw [hink] at this
    exact h2 c hc (List.mem_filter.1 this).1
  have no1 := no c! ':' (by simp)
  have no2 := no c! '=' (by simp)
  have no3 := no c! '(' (by simp)
  have hnb : ∃ y, nonBlanks t = c! '.' :: y := by
    obtain ⟨bs, r, hb, rfl⟩ := h1
    have g4 := congrArg nonBlanks g4
    have e : nonBlanks (c! '.' :: r) = c! '.' :: nonBlanks r := by
      unfold nonBlanks; rw [List.filter_cons, if_pos (by decide)]
    rw [nonBlanks_append, nonBlanks_append, nonBlanks_append, nonBlanks_blanks.2 g1, nonBlanks_blanks.2 hb, List.nil_append, List.nil_append, e] at g4
    have hsp : nonBlanks sp = [] := by
      cases hx : nonBlanks sp with
      | nil => rfl
      | cons c r =>
        rw [hx, List.cons_append] at g4
        have hm : c ∈ sp := (List.mem_filter.1 (show c ∈ nonBlanks sp by rw [hx]; simp)).1
        have := g5 c hm
        rw [← (List.cons.inj g4).1] at this
        exact absurd this (by unfold Space; decide)
    rw [hsp, List.nil_append] at g4
    exact ⟨nonBlanks r, by rw [g6, nonBlanks_cleaned, ← g4]⟩
  obtain ⟨y, hy⟩ := hnb
  refine ⟨?_, ?_, ?_, ?_⟩
  · obtain ⟨bs, r, k1, k2, -⟩ := nonBlanks_split hy
    exact ⟨bs, r, k1, k2⟩
  · rintro l (⟨-, -, ⟨r, rfl⟩ | ⟨x, bs, r, rfl, -⟩⟩ | ⟨c, x, bs, r, -, -, -, -, -, rfl⟩ | ⟨bs, bs', c, x, -, -, -, -, -, -, rfl⟩ |
      ⟨a, bs, ret, c, x, -, -, -, -, -, -, rfl⟩)
    · exact no1 (by simp)
    · exact no1 (by simp)
    · exact no2 (by simp)
    · exact no2 (by simp)
    · exact no3 (by simp)
  · rintro ⟨bs, kw, r, hb, hk, rfl⟩
    rw [ink_append, ink_append, ink_blanks hb, List.nil_append] at hink
    have : ∀ kw ∈ dataDirectives, ink kw = kw := by decide
    rw [this kw hk] at hink
    exact h3 kw hk ⟨_, hink⟩
  · intro hc
    have := contains_ink hc (by unfold Space; decide)
    rw [hink] at this
    exact h4 this

theorem WithoutDirectives.mem {f : Filter} {i : Bool} {ls ls' : List Str} (h : WithoutDirectives f i ls ls') : ∀ l ∈ ls', l ∈ ls := by
  induction h with
  | nil => intro l hl; exact hl
  | line _ ih =>
    intro x hx
    rcases List.mem_cons.1 hx with rfl | hx
    · simp
    · exact List.mem_cons_of_mem _ (ih x hx)
  | directive _ _ ih => intro x hx; exact List.mem_cons_of_mem _ (ih x hx)

variable [Recognizers]

/-- The states agree except for the source position and for what has been read. -/
structure Scan.Near (a b : Scan) : Prop where
  inside : a.inside = b.inside
  nest : a.nest = b.nest
  carry : a.carry = b.carry
  code : a.code = b.code
  params : a.params = b.params
  shown : a.shown = b.shown

/-- The lines do not begin CUDA functions. -/
def Headless (ls : List Str) : Prop := ∀ l ∈ ls, ¬ Contains (ink l) b! ".entry" ∧ ¬ Contains (ink l) b! ".func"

omit [Recognizers] in
theorem headless_text {ls : List Str} (h : Headless ls) {l : Str} (hl : l ∈ ls) {t : Str} (ht : ink t = ink l) : ¬ StartsCuda t := by
  rintro ⟨⟨k, a, bs, ret, c, x, hk, -, -, -, -, -, e⟩, -⟩
  have key : ∀ k, k ∈ [b! "entry", b! "func"] → Contains t (b! "." ++ k) → Contains (ink l) (b! "." ++ k) := by
    intro k hk hc
    rw [← ht]
    refine contains_ink hc ?_
    simp only [List.mem_cons, List.not_mem_nil, or_false] at hk
    rcases hk with rfl | rfl <;> (unfold Space; decide)
  have hc : Contains t (b! "." ++ k) := ⟨a, bs ++ ret ++ (c :: x) ++ b! "(", by rw [e]; simp⟩
  have := key k hk hc
  simp only [List.mem_cons, List.not_mem_nil, or_false] at hk
  rcases hk with rfl | rfl
  · exact (h l hl).1 this
  · exact (h l hl).2 this

theorem Scan.Near.line {f : Filter} (hd : f.directives = true) {ls : List Str} (hp : ProcAlone f ls) (hh : Headless ls) {a b : Scan}
    (hb : Blanks a.carry) (ha : a.params = false) (h : a.Near b) {l : Str} (hl : l ∈ ls) :
    (a.line f l).Near (b.line f l) ∧ (a.line f l).params = false := by
  unfold Scan.line
  simp only [← h.inside, ← h.carry, ← h.nest]
  split
  · exact ⟨⟨rfl, rfl, rfl, h.code, h.params, h.shown⟩, ha⟩
  split
  · exact ⟨⟨rfl, rfl, rfl, h.code, h.params, by simp [h.shown]⟩, ha⟩
  generalize (if startsWithWord [b! "#APP", b! "# Begin ASM"] (a.carry ++ l) = true then a.nest + 1
        else if startsWithWord [b! "#NO_APP", b! "# End ASM"] (a.carry ++ l) = true then a.nest - 1 else a.nest) = n
  obtain ⟨inl, hsh⟩ := shown_of_line f n (l := l) hb
  have hp := hp l hl _ inl hsh
  have hink := lineText_ink f n (l := l) hb
  have hns := headless_text hh hl (t := cleaned f (if n > 0 then fixLabelIndentation (a.carry ++ l) else a.carry ++ l)) hink
  generalize cleaned f (if n > 0 then fixLabelIndentation (a.carry ++ l) else a.carry ++ l) = text at *
  generalize a.carry ++ l = raw at *
  have hab : Scan.Near { a with nest := n, carry := [] } { b with inside := a.inside, nest := n, carry := [] } :=
    ⟨rfl, rfl, rfl, h.code, h.params, h.shown⟩
  have ha' : ({ a with nest := n, carry := [] } : Scan).params = false := ha
  clear h hsh
  generalize ({ a with nest := n, carry := [] } : Scan) = a' at *
  generalize ({ b with inside := a.inside, nest := n, carry := [] } : Scan) = b' at *
  obtain ⟨a1, a2, a3, a4, a5, a6⟩ := Scan.see_fields f a' raw text
  obtain ⟨b1, b2, b3, b4, b5, b6⟩ := Scan.see_fields f b' raw text
  have e0 : ∀ s : Scan, s.heads text = false := by intro s; unfold Scan.heads; simp [hns]
  have e2 : b'.skips f raw = a'.skips f raw := by unfold Scan.skips; rw [hab.code]
  have e3 : b'.infos text = a'.infos text := by unfold Scan.infos; rw [hab.code]
  have e4 : b'.hides f text = a'.hides f text := by unfold Scan.hides; rw [e3, e0, e0, hab.params]
  have hide : ∀ s : Scan, s.noProc f text = true → a'.hides f text = true := by
    intro s hs
    have := hp ((occurs_iff _ _).1 (of_decide_eq_true hs).2.2)
    unfold Scan.hides
    rw [ha', e0]
    simp [hd, this]
  have e5 : (a'.noProc f text || a'.skips f raw || a'.hides f text) = (b'.noProc f text || b'.skips f raw || b'.hides f text) := by
    rw [e2, e4]
    cases h1 : a'.hides f text
    · have x1 : a'.noProc f text = false := by
        cases hx : a'.noProc f text
        · rfl
        · rw [hide _ hx] at h1; cases h1
      have x2 : b'.noProc f text = false := by
        cases hx : b'.noProc f text
        · rfl
        · rw [hide _ hx] at h1; cases h1
      rw [x1, x2]
    · simp
  have hpa : (a'.see f raw text).params = false := by rw [a5, e0, ha']; simp
  refine ⟨⟨by rw [a1, b1, hab.inside], by rw [a2, b2, hab.nest], by rw [a3, b3, hab.carry], ?_, ?_, ?_⟩, hpa⟩
  · rw [a4, b4, e0, e0, hab.code]; simp
  · rw [hpa, b5, e0, ← hab.params, ha']; simp
  · rw [a6, b6, e5, hab.shown]

theorem line_directive {f : Filter} (hd : f.directives = true) (s : Scan) {l : Str} (hi : f.commentOnly = true → s.inside = false) (hb : s.carry = [])
    (hn : s.params = false) (hl : OnlyDirective f l) : (s.line f l).Near s := by
  obtain ⟨bs, r, k1, k2⟩ : Directive l := by
    -- the line itself
    obtain ⟨b0, r0, j1, j2⟩ := (hl (cleaned f l) false ⟨[], [], l, fun c hc => (by cases hc), rfl, fun c hc => (by cases hc), .inl rfl, rfl⟩).1
    have hy : nonBlanks l = c! '.' :: nonBlanks r0 := by
      rw [← nonBlanks_cleaned f l, j2, nonBlanks_append, nonBlanks_blanks.2 j1, List.nil_append]
      unfold nonBlanks; rw [List.filter_cons, if_pos (by decide)]
    obtain ⟨bs, r, k1, k2, -⟩ := nonBlanks_split hy
    exact ⟨bs, r, k1, k2⟩
  have hcb : ¬ Blank c! '.' := by decide
  have nopen : opensComment l = false := by
    cases h : opensComment l with
    | false => rfl
    | true =>
      rw [← startCommentBlock_opens, startCommentBlock_iff] at h
      obtain ⟨b2, r2, g1, g2⟩ := h
      rw [k2, show b2 ++ b! "/*" ++ r2 = b2 ++ c! '/' :: (c! '*' :: r2) by simp] at g2
      exact absurd (split_unique k1 g1 hcb (by decide) g2).2.1 (by decide)
  have nblank : l.all (fun c => c = 32 || c = 9) = false := by
    rw [← Bool.not_eq_true, List.all_eq_true]
    intro h
    have := h c! '.' (by rw [k2]; simp)
    exact absurd this (by decide)
  have mark : ∀ w1 w2, w1.head? = some c! '#' → w2.head? = some c! '#' → startsWithWord [w1, w2] l = false := by
    intro w1 w2 m1 m2
    rw [← Bool.not_eq_true]
    intro h
    have q : ∀ w : Str, w.head? = some c! '#' → (∀ c ∈ w.head?, ¬ Blank c) ∧ w ≠ [] := by
      intro w hw
      refine ⟨?_, by rintro rfl; cases hw⟩
      intro c hc; rw [hw] at hc; simp at hc; subst hc; decide
    have no : ∀ w b2 r2 : Str, w.head? = some c! '#' → Blanks b2 → l ≠ b2 ++ w ++ r2 := by
      intro w b2 r2 hw g1 g2
      cases w with
      | nil => cases hw
      | cons x w =>
        simp only [List.head?_cons, Option.some.injEq] at hw
        subst hw
        rw [k2, List.append_assoc, List.cons_append] at g2
        exact absurd (split_unique k1 g1 hcb (by decide) g2).2.1 (by decide)
    rcases (startsWithWord_two w1 w2 l (q w1 m1).1 (q w1 m1).2 (q w2 m2).1 (q w2 m2).2).1 h with ⟨b2, r2, g1, g2⟩ | ⟨b2, r2, g1, g2⟩
    · exact no _ _ _ m1 g1 g2
    · exact no _ _ _ m2 g1 g2
  unfold Scan.line
  simp only
  rw [hb, List.nil_append, nopen, if_neg (by
    intro h
    simp only [Bool.or_false, Bool.and_eq_true] at h
    rw [hi h.1] at h
    cases h.2), nblank, if_neg (by simp), mark _ _ rfl rfl, mark _ _ rfl rfl]
  simp only [Bool.false_eq_true, if_false]
  have hs : { s with nest := s.nest, carry := [] } = s := by rw [← hb]
  rw [hs]
  obtain ⟨inl, hsh⟩ := shown_of_line f s.nest (ws := []) (l := l) (by intro c hc; cases hc)
  have hpl := hl _ inl hsh
  rw [List.nil_append] at hpl
  generalize cleaned f (if s.nest > 0 then fixLabelIndentation l else l) = text at *
  obtain ⟨a1, a2, a3, a4, a5, a6⟩ := Scan.see_fields f s l text
  have e0 : s.heads text = false := by unfold Scan.heads; simp [hpl.notHeader]
  have e1 : s.hides f text = true := by unfold Scan.hides; rw [hn, e0]; simp [hd, hpl]
  refine ⟨a1, a2, a3, by rw [a4, e0]; simp, by rw [a5, e0, hn]; simp, by rw [a6, e1]; simp⟩

theorem line_open (f : Filter) (s : Scan) (l : Str) (hb : s.carry = []) (hc : f.commentOnly = true) :
    (s.line f l).inside = ((s.inside || opensComment l) && !occurs b! "*/" l) := by
  unfold Scan.line
  simp only
  rw [hb, hc, List.nil_append]
  cases h : (s.inside || opensComment l)
  · simp only [Bool.or_eq_false_iff] at h
    simp only [Bool.and_false, Bool.false_eq_true, if_false, Bool.false_and]
    split
    · exact h.1
    · rw [(Scan.see_fields f _ _ _).1]; exact h.1
  · simp

theorem without_lines {f : Filter} (hd : f.directives = true) {i : Bool} {ls ls' : List Str} (h : WithoutDirectives f i ls ls') :
    ProcAlone f ls → Headless ls → (∀ l ∈ ls, (∀ c ∈ l, Blank c) → l = []) →
    ∀ a b : Scan, (f.commentOnly = true → a.inside = i) → a.carry = [] → a.params = false → a.Near b →
    (ls.foldl (Scan.line f) a).shown = (ls'.foldl (Scan.line f) b).shown := by
  induction h with
  | nil => intro _ _ _ a b _ _ _ h; exact h.shown
  | @line i l ls ls' _ ih =>
    intro hp hh hl a b hi hb ha hab
    obtain ⟨h1, h2⟩ := hab.line hd hp hh (by rw [hb]; intro c hc; cases hc) ha (List.mem_cons_self (a := l))
    refine ih (fun x hx => hp x (List.mem_cons_of_mem _ hx)) (fun x hx => hh x (List.mem_cons_of_mem _ hx))
      (fun x hx => hl x (List.mem_cons_of_mem _ hx)) (a.line f l) (b.line f l) ?_ (line_carry f a l hb (hl l (by simp))) h2 h1
    intro hc
    rw [line_open f a l hb hc, hi hc]
  | @directive l ls ls' ho _ ih =>
    intro hp hh hl a b hi hb ha hab
    have h0 := line_directive hd a hi hb ha ho
    refine ih (fun x hx => hp x (List.mem_cons_of_mem _ hx)) (fun x hx => hh x (List.mem_cons_of_mem _ hx))
      (fun x hx => hl x (List.mem_cons_of_mem _ hx)) (a.line f l) b (fun hc => by rw [h0.inside, hi hc]) (by rw [h0.carry, hb]) (by rw [h0.params, ha]) ?_
    exact ⟨h0.inside.trans hab.inside, h0.nest.trans hab.nest, h0.carry.trans hab.carry, h0.code.trans hab.code, h0.params.trans hab.params,
      h0.shown.trans hab.shown⟩

end AsmParser
