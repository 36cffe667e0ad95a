/-
Helper lemmas: text mode reads pieces of the input independently, and lines that are only comments can be left out.
-/
import Verif.Proofs.Append
import Verif.Proofs.Remarks
import Verif.Spec.Pieces

namespace AsmParser

attribute [local irreducible] Re.search Re.fullMatch

variable [Recognizers]

/-- The states differ only in what has been read and shown before: `a` has shown `d` more at the beginning. -/
structure Scan.Like (f : Filter) (d : List Str) (a b : Scan) : Prop where
  inside : a.inside = b.inside
  nest : a.nest = b.nest
  carry : a.carry = b.carry
  code : a.code = b.code
  params : a.params = b.params
  placed : f.directives = true → a.placed = b.placed
  shown : a.shown = d ++ b.shown

omit [Recognizers] in
theorem Scan.Like.refl (f : Filter) (a : Scan) : Scan.Like f [] a a := ⟨rfl, rfl, rfl, rfl, rfl, fun _ => rfl, rfl⟩

omit [Recognizers] in
theorem Scan.Like.trans {f : Filter} {a b c : Scan} (h : Scan.Like f [] a b) (h' : Scan.Like f [] b c) : Scan.Like f [] a c :=
  ⟨h.inside.trans h'.inside, h.nest.trans h'.nest, h.carry.trans h'.carry, h.code.trans h'.code, h.params.trans h'.params,
    fun hd => (h.placed hd).trans (h'.placed hd), h.shown.trans h'.shown⟩

theorem Scan.see_placed (f : Filter) (s : Scan) (raw text : Str) :
    (s.see f raw text).placed = (if s.noProc f text then s.placed
      else if (EndsBlock text ∨ s.code = true ∧ c! '}' ∈ text) ∨ SetsLine text 0 then false
      else if ∃ n, SetsLine text n then true else s.placed) := by
  unfold Scan.see
  by_cases h1 : f.directives = true ∧ s.placed = false ∧ occurs b! ".cfi_startproc" text = true
  · rw [if_pos h1, show s.noProc f text = true from decide_eq_true h1]
    rfl
  · rw [if_neg h1, show s.noProc f text = false from decide_eq_false h1]
    simp only [Bool.false_eq_true, if_false]
    have e : ∀ sk, (if Seen.Ends { text := text, code := s.code, skipped := sk, params := s.params, inline := decide (s.nest > 0) } ∨ SetsLine text 0
        then false else if ∃ n, SetsLine text n then true else s.placed) =
        (if (EndsBlock text ∨ s.code = true ∧ c! '}' ∈ text) ∨ SetsLine text 0 then false
          else if ∃ n, SetsLine text n then true else s.placed) := by
      intro sk
      by_cases h : (EndsBlock text ∨ s.code = true ∧ c! '}' ∈ text) ∨ SetsLine text 0
      · rw [if_pos h, if_pos (show Seen.Ends { text := text, code := s.code, skipped := sk, params := s.params, inline := decide (s.nest > 0) } ∨ SetsLine text 0 from h)]
      · rw [if_neg h, if_neg (show ¬ (Seen.Ends { text := text, code := s.code, skipped := sk, params := s.params, inline := decide (s.nest > 0) } ∨ SetsLine text 0) from h)]
    simp only [e]
    repeat' split
    all_goals rfl

theorem Scan.Like.see {f : Filter} {d : List Str} {a b : Scan} (h : Scan.Like f d a b) (raw text : Str) :
    Scan.Like f d (a.see f raw text) (b.see f raw text) := by
  obtain ⟨a1, a2, a3, a4, a5, a6⟩ := Scan.see_fields f a raw text
  obtain ⟨b1, b2, b3, b4, b5, b6⟩ := Scan.see_fields f b raw text
  have e1 : a.noProc f text = b.noProc f text := by
    unfold Scan.noProc
    by_cases hd : f.directives = true
    · rw [h.placed hd]
    · simp [hd]
  have e2 : a.skips f raw = b.skips f raw := by unfold Scan.skips; rw [h.code]
  have e3 : a.infos text = b.infos text := by unfold Scan.infos; rw [h.code]
  have e4 : a.heads text = b.heads text := by unfold Scan.heads; rw [e3]
  have e5 : a.hides f text = b.hides f text := by unfold Scan.hides; rw [h.params, e4, e3]
  refine ⟨by rw [a1, b1, h.inside], by rw [a2, b2, h.nest], by rw [a3, b3, h.carry], by rw [a4, b4, h.code, e1, e2, e4],
    by rw [a5, b5, e1, e2, h.params, e4], fun hd => by rw [Scan.see_placed, Scan.see_placed, e1, h.code, h.placed hd], ?_⟩
  rw [a6, b6, e1, e2, e5, h.shown]
  split
  · rfl
  · simp

theorem Scan.Like.line {f : Filter} {d : List Str} {a b : Scan} (h : Scan.Like f d a b) (l : Str) :
    Scan.Like f d (a.line f l) (b.line f l) := by
  unfold Scan.line
  simp only
  rw [h.inside, h.carry, h.nest]
  split
  · exact ⟨rfl, rfl, rfl, h.code, h.params, h.placed, h.shown⟩
  · split
    · exact ⟨rfl, rfl, rfl, h.code, h.params, h.placed, by simp [h.shown]⟩
    · generalize (if startsWithWord [b! "#APP", b! "# Begin ASM"] (b.carry ++ l) = true then b.nest + 1
        else if startsWithWord [b! "#NO_APP", b! "# End ASM"] (b.carry ++ l) = true then b.nest - 1 else b.nest) = nest
      exact Scan.Like.see (a := { a with inside := b.inside, nest, carry := [] }) (b := { b with nest, carry := [] })
        ⟨rfl, rfl, rfl, h.code, h.params, h.placed, h.shown⟩ _ _

theorem Scan.Like.lines {f : Filter} {d : List Str} (ls : List Str) : ∀ {a b : Scan}, Scan.Like f d a b →
    Scan.Like f d (ls.foldl (Scan.line f) a) (ls.foldl (Scan.line f) b) := by
  induction ls with
  | nil => intro a b h; exact h
  | cons l ls ih => intro a b h; exact ih (h.line l)

/-! ### Pieces -/

/-- The input up to here leaves nothing open. -/
theorem scan_pieces (f : Filter) {s : Str} (hs : s = [] ∨ s.getLast? = some 10) (h : Scan.Like f (scan f s).shown (scan f s) {}) (t : Str) :
    (scan f (s ++ t)).shown = (scan f s).shown ++ (scan f t).shown := by
  have := (h.lines (inputLines t)).shown
  unfold scan at this ⊢
  rw [inputLines_more hs, List.foldl_append]
  exact this

omit [Recognizers] in
theorem collapse_pieces (b : Bool) (xs ys : List Str) : ∃ b', collapseFrom b (xs ++ ys) = collapseFrom b xs ++ collapseFrom b' ys := by
  induction xs generalizing b with
  | nil => exact ⟨b, rfl⟩
  | cons x xs ih =>
    simp only [List.cons_append, collapseFrom]
    split
    · obtain ⟨b', e⟩ := ih true
      refine ⟨b', ?_⟩
      rw [e]
      split <;> rfl
    · obtain ⟨b', e⟩ := ih false
      exact ⟨b', by rw [e]; rfl⟩

omit [Recognizers] in
theorem collapseFrom_either (b : Bool) (ys : List Str) : collapseFrom b ys = collapse ys ∨ collapseFrom b ys = [] :: collapse ys := by
  unfold collapse
  cases b with
  | true => exact .inl rfl
  | false =>
    cases ys with
    | nil => exact .inl rfl
    | cons y ys =>
      simp only [collapseFrom]
      split
      · exact .inr rfl
      · exact .inl rfl

theorem NothingOpen.like {f : Filter} {s : Str} (h : NothingOpen f s) : Scan.Like f (scan f s).shown (scan f s) {} :=
  ⟨h.comment, h.inline, h.blanks, h.cuda.1, h.cuda.2, h.position, by simp⟩

/-! ### Comments left out -/

theorem see_remark (f : Filter) (s : Scan) (raw text : Str) (hc : f.commentOnly = true) (h1 : CudaComment raw) (h2 : OnlyComment raw)
    (h3 : ∀ w ∈ [b! ".cfi_startproc", b! ".cfi_endproc", b! ".data", b! ".text", b! ".section"], ¬ Contains text w)
    (h4 : c! '}' ∉ text) (h5 : ∀ n, ¬ SetsLine text n) : Scan.Like f [] (s.see f raw text) s := by
  obtain ⟨a1, a2, a3, a4, a5, a6⟩ := Scan.see_fields f s raw text
  have e1 : s.noProc f text = false := by
    unfold Scan.noProc
    refine decide_eq_false ?_
    rintro ⟨-, -, h⟩
    exact h3 _ (by simp) ((occurs_iff _ _).1 h)
  have e2 : s.skips f raw = true := by
    unfold Scan.skips
    refine decide_eq_true (.inr ⟨hc, ?_⟩)
    split
    · exact h1
    · exact h2
  refine ⟨a1, a2, a3, by rw [a4, e2]; simp, by rw [a5, e2]; simp, fun _ => ?_, by rw [a6, e2]; simp⟩
  rw [Scan.see_placed, e1, if_neg (by simp), if_neg, if_neg]
  · rintro ⟨n, h⟩
    exact h5 n h
  · rintro ((⟨w, hw, h⟩ | ⟨-, h⟩) | h)
    · exact h3 w (List.mem_cons_of_mem _ hw) h
    · exact h4 h
    · exact h5 0 h

omit [Recognizers] in
theorem setsLine_ink {t : Str} {n : Int} (h : SetsLine t n) : ∃ r, ink t = c! '.' :: r := by
  rcases h with ⟨i, c, h, -⟩ | h | ⟨k, m, h, -, -⟩ | ⟨file, h⟩ | h
  · obtain ⟨a, bs, b, r, -, -, -, -, -, -, h, -⟩ := h; exact instructs_ink h
  · obtain ⟨a, b, r, -, -, -, -, h⟩ := h; exact instructs_ink h
  · obtain ⟨a, b, r, -, -, -, -, h⟩ := h; exact instructs_ink h
  · obtain ⟨bs, q, bs', a, -, -, -, -, -, h⟩ := h; exact instructs_ink h
  · obtain ⟨a, r, -, -, h⟩ := h; exact instructs_ink h

theorem line_remark (f : Filter) (s : Scan) (l : Str) (hc : f.commentOnly = true) (hi : s.inside = false) (hb : s.carry = []) (hl : Remark l) :
    Scan.Like f [] (s.line f l) s := by
  obtain ⟨bs, c, r, k1, k2, k3⟩ := hl.comment
  have hcb : ¬ Blank c := by rcases k3 with rfl | ⟨rfl, -⟩ | ⟨rfl, -⟩ <;> decide
  have nopen : opensComment l = false := by
    cases h : opensComment l with
    | false => rfl
    | true =>
      rw [← startCommentBlock_opens, startCommentBlock_iff] at h
      obtain ⟨b2, r2, g1, g2⟩ := h
      rw [k2, show b2 ++ b! "/*" ++ r2 = b2 ++ c! '/' :: (c! '*' :: r2) by simp] at g2
      obtain ⟨-, g3, g4⟩ := split_unique k1 g1 hcb (by decide) g2
      subst g3
      subst g4
      rcases k3 with h | ⟨-, h⟩ | ⟨h, -⟩
      · exact absurd h (by decide)
      · simp at h
      · exact absurd h (by decide)
  have nblank : l.all (fun c => c = 32 || c = 9) = false := by
    rw [← Bool.not_eq_true, List.all_eq_true]
    intro h
    refine hcb ?_
    have := h c (by rw [k2]; simp)
    unfold Blank
    simpa using this
  have mark : ∀ w1 w2, w1 ∈ [b! "#APP", b! "#NO_APP", b! "# Begin ASM", b! "# End ASM"] → w2 ∈ [b! "#APP", b! "#NO_APP", b! "# Begin ASM", b! "# End ASM"] →
      startsWithWord [w1, w2] l = false := by
    intro w1 w2 m1 m2
    rw [← Bool.not_eq_true]
    intro h
    have q : ∀ w ∈ [b! "#APP", b! "#NO_APP", b! "# Begin ASM", b! "# End ASM"], (∀ c ∈ w.head?, ¬ Blank c) ∧ w ≠ [] := by
      intro w hw
      simp only [List.mem_cons, List.not_mem_nil, or_false] at hw
      rcases hw with rfl | rfl | rfl | rfl <;> (refine ⟨?_, by simp⟩; intro c hc; simp at hc; subst hc; unfold Blank; decide)
    rcases (startsWithWord_two w1 w2 l (q w1 m1).1 (q w1 m1).2 (q w2 m2).1 (q w2 m2).2).1 h with ⟨b2, r2, g1, g2⟩ | ⟨b2, r2, g1, g2⟩
    · exact hl.marker w1 m1 b2 r2 g1 g2
    · exact hl.marker w2 m2 b2 r2 g1 g2
  unfold Scan.line
  simp only
  rw [hb, hi, List.nil_append, nopen, if_neg (by simp), nblank, if_neg (by simp), mark _ _ (by simp) (by simp), mark _ _ (by simp) (by simp)]
  simp only [Bool.false_eq_true, if_false]
  have hs : { s with nest := s.nest, carry := [] } = s := by rw [← hb]
  have hink : ink (cleaned f (if s.nest > 0 then fixLabelIndentation l else l)) = ink l := by
    have := lineText_ink f s.nest (ws := []) (l := l) (by intro c hc; cases hc)
    exact this
  refine Scan.Like.trans (see_remark f _ l _ hc ?_ ?_ ?_ ?_ ?_) ⟨hi.symm, rfl, hb.symm, rfl, rfl, fun _ => rfl, rfl⟩
  · refine ⟨bs, c :: r, k1, k2, ?_⟩
    rcases k3 with rfl | ⟨rfl, h⟩ | ⟨rfl, h⟩
    · exact .inl ⟨r, rfl⟩
    · obtain ⟨r', rfl⟩ := List.head?_eq_some_iff.1 h
      exact .inr (.inr (.inl ⟨r', rfl⟩))
    · exact .inr (.inl ⟨r, rfl⟩)
  · refine ⟨bs, c :: r, k1, k2, ?_⟩
    rcases k3 with rfl | ⟨rfl, h⟩ | ⟨rfl, h⟩
    · exact .inl ⟨r, rfl⟩
    · obtain ⟨r', rfl⟩ := List.head?_eq_some_iff.1 h
      exact .inr (.inr (.inl ⟨r', rfl⟩))
    · refine .inr (.inr (.inr (.inr ⟨r, rfl, ?_⟩)))
      rintro ⟨ws, rfl, -⟩
      exact h rfl
  · intro w hw hcon
    have hsp : ∀ c ∈ w, ¬ Space c := by
      simp only [List.mem_cons, List.not_mem_nil, or_false] at hw
      rcases hw with rfl | rfl | rfl | rfl | rfl <;> (unfold Space; decide)
    have := contains_ink hcon hsp
    rw [hink] at this
    exact hl.words w hw this
  · intro h
    have : c! '}' ∈ ink (cleaned f (if s.nest > 0 then fixLabelIndentation l else l)) := List.mem_filter.2 ⟨h, by decide⟩
    rw [hink] at this
    exact hl.brace (List.mem_filter.1 this).1
  · intro n h
    obtain ⟨r1, h1⟩ := setsLine_ink h
    obtain ⟨c2, r2, h2, h3⟩ := remark_ink hl
    rw [hink, h2] at h1
    exact h3 (List.cons.inj h1).1

theorem line_inside (f : Filter) (s : Scan) (l : Str) (hi : s.inside = false) (ho : opensComment (s.carry ++ l) = false) :
    (s.line f l).inside = false := by
  unfold Scan.line
  simp only
  rw [hi, ho, if_neg (by simp)]
  split
  · rfl
  · exact (Scan.see_fields f _ _ _).1

theorem line_carry (f : Filter) (s : Scan) (l : Str) (hb : s.carry = []) (hl : (∀ c ∈ l, Blank c) → l = []) : (s.line f l).carry = [] := by
  unfold Scan.line
  simp only
  rw [hb, List.nil_append]
  split
  · rfl
  · split
    · rename_i h
      refine hl fun c hc => ?_
      rw [List.all_eq_true] at h
      have := h c hc
      unfold Blank
      simpa using this
    · exact (Scan.see_fields f _ _ _).2.2.1

theorem leftOut_lines {f : Filter} (hc : f.commentOnly = true) {i : Bool} {ls ls' : List Str} (h : LeftOut i ls ls') :
    (∀ l ∈ ls, (∀ c ∈ l, Blank c) → l = []) → ∀ a b : Scan, a.inside = i → a.carry = [] → Scan.Like f [] { a with inside := false } b →
    (ls.foldl (Scan.line f) a).shown = (ls'.foldl (Scan.line f) b).shown := by
  have block : ∀ (a b : Scan) (l : Str), (a.inside = true ∨ opensComment l = true) → a.carry = [] → Scan.Like f [] { a with inside := false } b →
      (a.line f l).inside = !occurs b! "*/" l ∧ (a.line f l).carry = [] ∧ Scan.Like f [] { a.line f l with inside := false } b := by
    intro a b l h1 h2 h3
    have e : a.line f l = { a with inside := !occurs b! "*/" l, carry := [] } := by
      unfold Scan.line
      simp only
      rw [h2, List.nil_append, hc, if_pos (by simpa using h1)]
    rw [e]
    exact ⟨rfl, rfl, h3.inside, h3.nest, by rw [← h3.carry, h2], h3.code, h3.params, h3.placed, h3.shown⟩
  induction h with
  | nil =>
    intro _ a b _ _ h
    exact h.shown
  | @line l ls ls' ho h ih =>
    intro hl a b hi hb hab
    have ea : { a with inside := false } = a := by rw [← hi]
    rw [ea] at hab
    have h1 := line_inside f a l hi (by rw [hb]; exact ho)
    refine ih (fun x hx => hl x (List.mem_cons_of_mem _ hx)) (a.line f l) (b.line f l) h1
      (line_carry f a l hb (hl l (by simp))) ?_
    have e2 : { a.line f l with inside := false } = a.line f l := by rw [← h1]
    rw [e2]
    exact hab.line l
  | @remark l ls ls' hr h ih =>
    intro hl a b hi hb hab
    have ea : { a with inside := false } = a := by rw [← hi]
    rw [ea] at hab
    have h0 := line_remark f a l hc hi hb hr
    have h1 : (a.line f l).inside = false := by rw [h0.inside, hi]
    have e2 : { a.line f l with inside := false } = a.line f l := by rw [← h1]
    refine ih (fun x hx => hl x (List.mem_cons_of_mem _ hx)) (a.line f l) b h1 (by rw [h0.carry, hb]) ?_
    rw [e2]
    exact h0.trans hab
  | @opening l ls ls' ho h ih =>
    intro hl a b hi hb hab
    obtain ⟨h1, h2, h3⟩ := block a b l (.inr ho) hb hab
    exact ih (fun x hx => hl x (List.mem_cons_of_mem _ hx)) (a.line f l) b h1 h2 h3
  | @inside l ls ls' h ih =>
    intro hl a b hi hb hab
    obtain ⟨h1, h2, h3⟩ := block a b l (.inl hi) hb hab
    exact ih (fun x hx => hl x (List.mem_cons_of_mem _ hx)) (a.line f l) b h1 h2 h3

/-! ### Plain pieces -/

omit [Recognizers] in
theorem setsLine_word {t : Str} {n : Int} (h : SetsLine t n) : ∃ w ∈ [b! ".loc", b! ".stabn", b! ".dbg", b! ".d2line"], Contains t w := by
  have key : ∀ {kw arg : Str}, Instructs t kw arg → Contains t kw := by
    rintro kw arg ⟨bs, bs', -, -, -, rfl⟩
    exact ⟨bs, bs' ++ arg, by simp⟩
  rcases h with ⟨i, c, h, -⟩ | h | ⟨k, m, h, -, -⟩ | ⟨file, h⟩ | h
  · obtain ⟨a, bs, b, r, -, -, -, -, -, -, h, -⟩ := h; exact ⟨_, by simp, key h⟩
  · obtain ⟨a, b, r, -, -, -, -, h⟩ := h; exact ⟨b! ".stabn", by simp, key h⟩
  · obtain ⟨a, b, r, -, -, -, -, h⟩ := h; exact ⟨b! ".stabn", by simp, key h⟩
  · obtain ⟨bs, q, bs', a, -, -, -, -, -, h⟩ := h; exact ⟨b! ".dbg", by simp, key h⟩
  · obtain ⟨a, r, -, -, h⟩ := h; exact ⟨b! ".d2line", by simp, key h⟩

omit [Recognizers] in
theorem no_marker {l : Str} (h : ∀ w ∈ [b! "#APP", b! "#NO_APP", b! "# Begin ASM", b! "# End ASM"], ∀ bs r, Blanks bs → l ≠ bs ++ w ++ r) :
    startsWithWord [b! "#APP", b! "# Begin ASM"] l = false ∧ startsWithWord [b! "#NO_APP", b! "# End ASM"] l = false := by
  constructor
  · rw [← Bool.not_eq_true, startsWithWord_two _ _ l (by intro c hc; simp at hc; subst hc; unfold Blank; decide) (by simp)
      (by intro c hc; simp at hc; subst hc; unfold Blank; decide) (by simp)]
    rintro (⟨bs, r, g1, g2⟩ | ⟨bs, r, g1, g2⟩) <;> exact h _ (by simp) bs r g1 g2
  · rw [← Bool.not_eq_true, startsWithWord_two _ _ l (by intro c hc; simp at hc; subst hc; unfold Blank; decide) (by simp)
      (by intro c hc; simp at hc; subst hc; unfold Blank; decide) (by simp)]
    rintro (⟨bs, r, g1, g2⟩ | ⟨bs, r, g1, g2⟩) <;> exact h _ (by simp) bs r g1 g2

/-- Nothing is open. -/
structure Scan.Idle (f : Filter) (a : Scan) : Prop where
  inside : a.inside = false
  nest : a.nest = 0
  carry : a.carry = []
  code : a.code = false
  params : a.params = false
  placed : f.directives = true → a.placed = false

theorem Scan.Idle.line {f : Filter} {s : Str} (h : PlainPiece f s) {a : Scan} (ha : a.Idle f) {l : Str} (hl : l ∈ inputLines s) :
    (a.line f l).Idle f := by
  have hcar := line_carry f a l ha.carry (h.blanks l hl)
  have hopen : (f.commentOnly && (a.inside || opensComment (a.carry ++ l))) = false := by
    rw [ha.inside, ha.carry, List.nil_append, Bool.false_or]
    cases hc : f.commentOnly
    · rfl
    · rw [h.comment hc l hl]; rfl
  have hm := no_marker (h.inline l hl)
  unfold Scan.line at hcar ⊢
  simp only at hcar ⊢
  rw [hopen] at hcar ⊢
  rw [ha.carry, List.nil_append, hm.1, hm.2, ha.nest] at hcar ⊢
  simp only [Bool.false_eq_true, if_false] at hcar ⊢
  split
  · rename_i hb
    rw [if_pos hb] at hcar
    exact ⟨ha.inside, rfl, hcar, ha.code, ha.params, ha.placed⟩
  · rename_i hb
    rw [if_neg hb] at hcar
    rw [if_neg (by omega : ¬ (0 : Int) > 0)] at hcar ⊢
    obtain ⟨inl, hsh⟩ := shown_of_line f 0 (ws := []) (l := l) (by intro c hc; cases hc)
    rw [if_neg (by omega : ¬ (0 : Int) > 0), List.nil_append] at hsh
    have hcu := not_startsCuda hsh (h.cuda l hl)
    have hink : ink (cleaned f l) = ink l := ink_cleaned f l
    generalize cleaned f l = text at *
    have hh : Scan.heads { a with nest := 0, carry := [] } text = false := by unfold Scan.heads; simp [hcu]
    obtain ⟨b1, b2, b3, b4, b5, -⟩ := Scan.see_fields f { a with nest := 0, carry := [] } l text
    refine ⟨b1.trans ha.inside, b2, b3, ?_, ?_, fun hd => ?_⟩
    · rw [b4, hh]; simp [ha.code]
    · rw [b5, hh]; simp [ha.params]
    · have hset : ∀ n, ¬ SetsLine text n := by
        intro n hs
        obtain ⟨w, hw, hcon⟩ := setsLine_word hs
        refine h.position hd l hl w hw ?_
        rw [← hink]
        refine contains_ink hcon ?_
        simp only [List.mem_cons, List.not_mem_nil, or_false] at hw
        rcases hw with rfl | rfl | rfl | rfl <;> (unfold Space; decide)
      rw [Scan.see_placed]
      have hp : a.placed = false := ha.placed hd
      rw [if_neg (c := ∃ n, SetsLine text n) (fun ⟨n, hn⟩ => hset n hn)]
      simp [hp]

theorem PlainPiece.open {f : Filter} {s : Str} (h : PlainPiece f s) : NothingOpen f s := by
  have key : ∀ (ls : List Str) (a : Scan), (∀ l ∈ ls, l ∈ inputLines s) → a.Idle f → (ls.foldl (Scan.line f) a).Idle f := by
    intro ls
    induction ls with
    | nil => intro a _ ha; exact ha
    | cons l ls ih =>
      intro a hm ha
      exact ih _ (fun x hx => hm x (List.mem_cons_of_mem _ hx)) (ha.line h (hm l (by simp)))
  have := key (inputLines s) {} (fun _ h => h) ⟨rfl, rfl, rfl, rfl, rfl, fun _ => rfl⟩
  exact ⟨h.complete, this.inside, this.nest, this.carry, ⟨this.code, this.params⟩, this.placed⟩

end AsmParser
