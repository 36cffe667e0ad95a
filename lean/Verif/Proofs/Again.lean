/-
Helper lemmas: reading the output of text mode again.
-/
import Verif.Proofs.Quotes
import Verif.Proofs.TextUtils
import Verif.Proofs.MoreFilters

namespace AsmParser

attribute [local irreducible] Re.search Re.fullMatch

/-! ### Removing blanks twice is the same as once -/

theorem squashLoop_twice (st : HorSpaceState) (s : Str) : squashLoop st (squashLoop st s) = squashLoop st s := by
  induction s generalizing st with
  | nil => rfl
  | cons c s ih =>
    have h32 : isWhitespace 32 = true := by decide
    by_cases hc : isWhitespace c = true
    · cases st <;> simp [squashLoop, squashStep, hc, h32, ih]
    · cases st <;> simp [squashLoop, squashStep, hc, ih]

theorem squashLoop_all_blank (st : HorSpaceState) (s : Str) : (squashLoop st s).all isWhitespace = s.all isWhitespace := by
  induction s generalizing st with
  | nil => rfl
  | cons c s ih =>
    have h32 : isWhitespace 32 = true := by decide
    by_cases hc : isWhitespace c = true
    · cases st <;> simp [squashLoop, squashStep, hc, h32, ih]
    · cases st <;> simp [squashLoop, squashStep, hc]

theorem squash_twice (s : Str) : squashHorizontalWhitespace (squashHorizontalWhitespace s true) true = squashHorizontalWhitespace s true := by
  by_cases h : s.all isWhitespace = true
  · have e : squashHorizontalWhitespace s true = [] := by simp only [squashHorizontalWhitespace, Bool.true_and, h, if_true]
    rw [e]; rfl
  · have e : squashHorizontalWhitespace s true = squashLoop .start s := by
      simp only [squashHorizontalWhitespace, Bool.true_and, h]; rfl
    rw [e]
    have h' : ¬ (squashLoop .start s).all isWhitespace = true := by rw [squashLoop_all_blank]; exact h
    simp only [squashHorizontalWhitespace, Bool.true_and, h']
    exact squashLoop_twice _ _

theorem squashLoop_mem {st : HorSpaceState} {s : Str} {c : Byte} (h : c ∈ squashLoop st s) : c = 32 ∨ c ∈ s := by
  induction s generalizing st with
  | nil => cases h
  | cons d s ih =>
    by_cases hd : isWhitespace d = true
    · cases st <;> simp [squashLoop, squashStep, hd] at h <;> grind
    · cases st <;> simp [squashLoop, squashStep, hd] at h <;> grind

theorem squash_mem {s : Str} {c : Byte} (h : c ∈ squashHorizontalWhitespace s true) : c = 32 ∨ c ∈ s := by
  simp only [squashHorizontalWhitespace] at h
  split at h
  · cases h
  · exact squashLoop_mem h

/-! ### Literals in a squashed text -/

theorem noLiteral_of_no_quote {s : Str} (h : c! '"' ∉ s) : NoLiteral s := by
  rintro u q r rfl ⟨t, rfl, _⟩
  simp at h

/-- Between two consecutive squashed characters of a literal nothing but plain blanks is dropped. -/
theorem literalTail_squash {st : HorSpaceState} {s t r : Str} (hst : st = .stop ∨ st = .justOne) (ht : LiteralTail t)
    (h : squashLoop st s = t ++ r) : ∃ t' r', s = t' ++ r' ∧ LiteralTail t' := by
  induction s using (measure List.length).wf.induction generalizing st t r with
  | _ s ih =>
  match s, h with
  | [], h =>
    simp only [squashLoop] at h
    have := List.append_eq_nil_iff.1 h.symm
    exact absurd this.1 (literalTail_ne ht)
  | c :: s, h =>
    by_cases hc : isWhitespace c = true
    · have hq : c ≠ c! '"' := by rintro rfl; revert hc; decide
      have hb : c ≠ c! '\\' := by rintro rfl; revert hc; decide
      rcases hst with rfl | rfl
      · simp [squashLoop, squashStep, hc] at h
        obtain ⟨t', r', e, h'⟩ := ih s (by simp [InvImage, WellFoundedRelation.rel]) (Or.inl rfl) ht h
        exact ⟨c :: t', r', by rw [e]; rfl, .plain hq hb h'⟩
      · simp [squashLoop, squashStep, hc] at h
        cases ht with
        | close => simp at h
        | @plain d t1 hdq hdb h1 =>
          simp at h
          obtain ⟨t', r', e, h'⟩ := ih s (by simp [InvImage, WellFoundedRelation.rel]) (Or.inl rfl) h1 h.2
          exact ⟨c :: t', r', by rw [e]; rfl, .plain hq hb h'⟩
        | escape h1 => simp at h
    · have h : c :: squashLoop .justOne s = t ++ r := by
        rcases hst with rfl | rfl <;> simpa [squashLoop, squashStep, hc] using h
      cases ht with
      | close =>
        simp at h
        exact ⟨b! "\"", s, by rw [h.1]; rfl, .close⟩
      | @plain d t1 hdq hdb h1 =>
        simp at h
        obtain ⟨t', r', e, h'⟩ := ih s (by simp [InvImage, WellFoundedRelation.rel]) (Or.inr rfl) h1 h.2
        exact ⟨c :: t', r', by rw [e]; rfl, .plain (h.1 ▸ hdq) (h.1 ▸ hdb) h'⟩
      | @escape d t1 h1 =>
        simp at h
        obtain ⟨rfl, hh⟩ := h
        clear h
        match s, hh with
        | [], h => cases h
        | d' :: s, h =>
          have : ∃ st', (st' = .stop ∨ st' = .justOne) ∧ squashLoop st' s = t1 ++ r := by
            by_cases hd : isWhitespace d' = true
            · simp [squashLoop, squashStep, hd] at h
              exact ⟨_, Or.inl rfl, h.2⟩
            · simp [squashLoop, squashStep, hd] at h
              exact ⟨_, Or.inr rfl, h.2⟩
          obtain ⟨st', hst', h⟩ := this
          obtain ⟨t', r', e, h'⟩ := ih s (by simp [InvImage, WellFoundedRelation.rel]; omega) hst' h1 h
          exact ⟨c! '\\' :: d' :: t', r', by rw [e]; rfl, .escape h'⟩

theorem noLiteral_squashLoop {st : HorSpaceState} {s : Str} (h : NoLiteral s) : NoLiteral (squashLoop st s) := by
  induction s generalizing st with
  | nil => exact h
  | cons c s ih =>
    have hs : NoLiteral s := fun u q r e => h (c :: u) q r (by rw [e]; rfl)
    rintro u q r e hq
    have key : ∀ st', (st' = .stop ∨ st' = .justOne) → c :: squashLoop st' s = u ++ q ++ r → False := by
      intro st' hst' e
      obtain ⟨t, rfl, ht⟩ := hq
      cases u with
      | nil =>
        simp at e
        obtain ⟨t', r', e', h'⟩ := literalTail_squash hst' ht e.2
        exact h [] (c! '"' :: t') r' (by rw [e.1, e']; rfl) ⟨_, rfl, h'⟩
      | cons d u =>
        simp at e
        exact ih hs u (c! '"' :: t) r (by rw [e.2]; simp) ⟨_, rfl, ht⟩
    have key2 : ∀ st', 32 :: squashLoop st' s = u ++ q ++ r → False := by
      intro st' e
      obtain ⟨t, rfl, ht⟩ := hq
      cases u with
      | nil => simp at e
      | cons d u =>
        simp at e
        exact ih hs u (c! '"' :: t) r (by rw [e.2]; simp) ⟨_, rfl, ht⟩
    by_cases hc : isWhitespace c = true
    · cases st <;> simp only [squashLoop, squashStep, hc, if_true] at e
      · exact key2 _ e
      · exact key2 _ e
      · exact ih hs u q r e hq
      · exact key2 _ e
    · cases st <;> simp only [squashLoop, squashStep, hc] at e
      · exact key _ (Or.inl rfl) e
      · exact key _ (Or.inl rfl) e
      · exact key _ (Or.inr rfl) e
      · exact key _ (Or.inr rfl) e

theorem noLiteral_squash {s : Str} (h : NoLiteral s) : NoLiteral (squashHorizontalWhitespace s true) := by
  simp only [squashHorizontalWhitespace]
  split
  · exact noLiteral_of_no_quote (by simp)
  · exact noLiteral_squashLoop h

/-- Nothing before the first literal is a quote. -/
theorem literalTail_before {t : Str} (ht : LiteralTail t) (u r : Str) :
    ∃ t' r', u ++ c! '"' :: t ++ r = t' ++ r' ∧ LiteralTail t' := by
  induction u using (measure List.length).wf.induction with
  | _ u ih =>
  match u with
  | [] => exact ⟨b! "\"", t ++ r, rfl, .close⟩
  | c :: u =>
    by_cases hq : c = c! '"'
    · subst hq; exact ⟨b! "\"", u ++ c! '"' :: t ++ r, by simp, .close⟩
    by_cases hb : c = c! '\\'
    · subst hb
      match u with
      | [] => exact ⟨c! '\\' :: c! '"' :: t, r, rfl, .escape ht⟩
      | d :: u =>
        obtain ⟨t', r', e, h'⟩ := ih u (by simp [InvImage, WellFoundedRelation.rel]; omega)
        exact ⟨c! '\\' :: d :: t', r', by simp at e; simp [e], .escape h'⟩
    · obtain ⟨t', r', e, h'⟩ := ih u (by simp [InvImage, WellFoundedRelation.rel])
      exact ⟨c :: t', r', by simp at e; simp [e], .plain hq hb h'⟩

theorem firstLiteral_no_quote {s u q r : Str} (h : FirstLiteral s u q r) : c! '"' ∉ u := by
  intro hm
  obtain ⟨a, b, rfl⟩ := List.append_of_mem hm
  obtain ⟨h1, ⟨t, rfl, ht⟩, hmin⟩ := h
  subst h1
  obtain ⟨t', r', e, h'⟩ := literalTail_before ht b r
  have := hmin a (c! '"' :: t') r' (by simp at e; simp [e]) ⟨_, rfl, h'⟩
  simp at this
  try omega

theorem firstLiteral_intro {u q r : Str} (hu : c! '"' ∉ u) (hq : IsLiteral q) : FirstLiteral (u ++ q ++ r) u q r := by
  refine ⟨rfl, hq, ?_⟩
  intro u' q' r' e hq'
  obtain ⟨t', rfl, _⟩ := hq'
  by_cases hl : u.length ≤ u'.length
  · exact hl
  · exfalso
    have e2 := congrArg (fun l => l[u'.length]?) e
    simp only [List.append_assoc] at e2
    rw [List.getElem?_append_left (by omega), List.getElem?_append_right (by omega)] at e2
    simp at e2
    exact hu (List.mem_of_getElem? e2)

theorem squashQuotes_twice (s : Str) (b b' : Bool) :
    squashHorizontalWhitespaceWithQuotes (squashHorizontalWhitespaceWithQuotes s b) b' = squashHorizontalWhitespaceWithQuotes s b := by
  induction s using (measure List.length).wf.induction generalizing b b' with
  | _ s ih =>
  by_cases h : NoLiteral s
  · rw [squashQuotes_none b h, squashQuotes_none b' (noLiteral_squash h), squash_twice]
  · obtain ⟨u, q, r, hf⟩ := firstLiteral_exists s h
    have hu := firstLiteral_no_quote hf
    have hu' : c! '"' ∉ squashHorizontalWhitespace u true := by
      intro hm
      rcases squash_mem hm with h | h
      · revert h; decide
      · exact hu h
    have hr := ih r (firstLiteral_shorter hf).2 true true
    rw [squashQuotes_first b hf]
    rw [squashQuotes_first b' (firstLiteral_intro hu' hf.lit), hr, squash_twice]

/-! ### Cleaning twice is the same as once -/

theorem padTabs_id {s : Str} (h : 9 ∉ s) (k : Nat) : padTabs k s = s := by
  induction s generalizing k with
  | nil => rfl
  | cons c s ih =>
    have hc : c ≠ 9 := by rintro rfl; simp at h
    have hs : 9 ∉ s := fun hm => h (List.mem_cons_of_mem _ hm)
    unfold padTabs
    rw [if_neg hc, ih hs]

theorem squashQuotes_mem {s : Str} (b : Bool) {c : Byte} (h : c ∈ squashHorizontalWhitespaceWithQuotes s b) : c = 32 ∨ c ∈ s := by
  induction s using (measure List.length).wf.induction generalizing b with
  | _ s ih =>
  by_cases hn : NoLiteral s
  · rw [squashQuotes_none b hn] at h; exact squash_mem h
  · obtain ⟨u, q, r, hf⟩ := firstLiteral_exists s hn
    have he := hf.eq
    rw [squashQuotes_first b hf] at h
    rcases List.mem_append.1 h with h | h
    · rcases List.mem_append.1 h with h | h
      · rcases squash_mem h with h | h
        · exact .inl h
        · right; rw [he]; simp [h]
      · right; rw [he]; simp [h]
    · rcases ih r (firstLiteral_shorter hf).2 true h with h | h
      · exact .inl h
      · right; rw [he]; simp [h]

theorem cleaned_no_tab (f : Filter) (t : Str) : 9 ∉ cleaned f t := by
  have h : 9 ∉ expandTabs t := by rw [expandTabs_eq]; exact padTabs_no_tab 0 t
  unfold cleaned
  split
  · intro hm
    rcases squashQuotes_mem true hm with h' | h'
    · exact absurd h' (by decide)
    · exact h h'
  · exact h

theorem cleaned_twice (f : Filter) (t : Str) : cleaned f (cleaned f t) = cleaned f t := by
  have h := cleaned_no_tab f t
  have e : expandTabs (cleaned f t) = cleaned f t := by rw [expandTabs_eq, padTabs_id h]
  rw [show cleaned f (cleaned f t) = (if f.whitespace then squashHorizontalWhitespaceWithQuotes (expandTabs (cleaned f t)) true
    else expandTabs (cleaned f t)) from rfl, e]
  split
  · rename_i hw
    have e2 : cleaned f t = squashHorizontalWhitespaceWithQuotes (expandTabs t) true := by unfold cleaned; rw [if_pos hw]
    rw [e2, squashQuotes_twice]
  · rfl

theorem cleaned_no_newline {f : Filter} {t : Str} (h : 10 ∉ t) : 10 ∉ cleaned f t := by
  intro hm
  have : (10 : Byte) ∈ nonBlanks (cleaned f t) := List.mem_filter.2 ⟨hm, by decide⟩
  rw [nonBlanks_cleaned] at this
  exact h (List.mem_filter.1 this).1

/-! ### Blank lines -/

theorem collapseFrom_twice (b : Bool) (ls : List Str) : collapseFrom b (collapseFrom b ls) = collapseFrom b ls := by
  induction ls generalizing b with
  | nil => rfl
  | cons l ls ih =>
    by_cases hl : l = []
    · subst hl
      cases b
      · simp [collapseFrom, ih]
      · simp [collapseFrom, ih]
    · simp [collapseFrom, hl, ih]

theorem collapse_collapse (ls : List Str) : collapse (collapse ls) = collapse ls := collapseFrom_twice true ls

theorem collapseFrom_mem (b : Bool) (ls : List Str) {l : Str} (h : l ∈ collapseFrom b ls) : l ∈ ls := by
  induction ls generalizing b with
  | nil => exact h
  | cons x ls ih =>
    unfold collapseFrom at h
    split at h
    · split at h
      · exact List.mem_cons_of_mem _ (ih _ h)
      · rename_i hx _
        rcases List.mem_cons.1 h with rfl | h
        · rw [hx]; simp
        · exact List.mem_cons_of_mem _ (ih _ h)
    · rcases List.mem_cons.1 h with rfl | h
      · simp
      · exact List.mem_cons_of_mem _ (ih _ h)

theorem mem_collapseFrom (b : Bool) {ls : List Str} {l : Str} (hl : l ≠ []) (h : l ∈ ls) : l ∈ collapseFrom b ls := by
  induction ls generalizing b with
  | nil => exact h
  | cons x ls ih =>
    unfold collapseFrom
    rcases List.mem_cons.1 h with rfl | h
    · rw [if_neg hl]; simp
    · split
      · split
        · exact ih _ h
        · exact List.mem_cons_of_mem _ (ih _ h)
      · exact List.mem_cons_of_mem _ (ih _ h)

/-! ### Comments -/

theorem opens_cleaned (f : Filter) (t : Str) {bs r : Str} (hb : Blanks bs) (h : cleaned f t = bs ++ b! "/*" ++ r) :
    f.whitespace = true ∨ ∃ bs' r', Blanks bs' ∧ t = bs' ++ b! "/*" ++ r' := by
  cases hw : f.whitespace with
  | true => exact .inl rfl
  | false =>
    right
    have e : cleaned f t = bs ++ c! '/' :: (c! '*' :: r) := by rw [h]; simp
    have h1 : nonBlanks t = c! '/' :: nonBlanks (c! '*' :: r) := by
      rw [← nonBlanks_cleaned f, e, nonBlanks_prefix hb (by decide)]
    obtain ⟨bs', r', g1, g2, -⟩ := nonBlanks_split h1
    unfold cleaned at e
    rw [if_neg (by simp [hw]), expandTabs_eq, g2] at e
    obtain ⟨b2, k, h3, h4⟩ := padTabs_split (r := r') g1 (show ¬ Blank c! '/' by decide)
    rw [h4] at e
    obtain ⟨-, -, h5⟩ := split_unique h3 hb (by decide) (by decide) e
    obtain ⟨r2, h6⟩ := padTabs_head (show ¬ Blank c! '*' by decide) h5
    exact ⟨bs', r2, g1, by rw [g2, h6]; simp⟩

theorem opensComment_iff (t : Str) : opensComment t = true ↔ ∃ bs r, Blanks bs ∧ t = bs ++ b! "/*" ++ r := by
  rw [← startCommentBlock_opens, startCommentBlock_iff]

/-! ### Reading again -/

section
variable [Recognizers]

/-- What is expected of a line of the output. -/
structure Stable (f : Filter) (t : Str) : Prop where
  asm : ∀ bs r, Blanks bs → t ≠ bs ++ b! "#APP" ++ r ∧ t ≠ bs ++ b! "# Begin ASM" ++ r
  proc : f.directives = true → ¬ Contains t b! ".cfi_startproc"
  slash : f.commentOnly = true → f.whitespace = true → ∀ bs r, Blanks bs → t ≠ bs ++ c! '/' :: r

/-- The second run has read what the first one shows, and stands where the first one does. -/
structure InStep (f : Filter) (a b : Scan) : Prop where
  shown : b.shown = collapse a.shown
  code : b.code = a.code
  params : b.params = a.params
  inside : b.inside = false
  carry : b.carry = []
  nest : b.nest ≤ 0

/-- The second run. -/
def again (f : Filter) (a : Scan) : Scan := (collapse a.shown).foldl (Scan.line f) {}

omit [Recognizers] in
theorem stable_noApp {f : Filter} {t : Str} (h : Stable f t) : startsWithWord [b! "#APP", b! "# Begin ASM"] t = false := by
  cases hs : startsWithWord [b! "#APP", b! "# Begin ASM"] t with
  | false => rfl
  | true =>
    exfalso
    unfold startsWithWord at hs
    obtain ⟨bs, h1, h2⟩ := dropWhile_blank t
    obtain ⟨w, hw, hpre⟩ := List.any_eq_true.1 hs
    obtain ⟨r, hr⟩ := List.isPrefixOf_iff_prefix.1 hpre
    rw [← hr, ← List.append_assoc] at h2
    have := h.asm bs r h1
    simp only [List.mem_cons, List.not_mem_nil, or_false] at hw
    rcases hw with rfl | rfl
    · exact this.1 h2
    · exact this.2 h2

/-- A blank line changes nothing in the second run. -/
theorem again_blank {f : Filter} {b : Scan} (h1 : b.inside = false) (h2 : b.carry = []) :
    Scan.line f b [] = { b with gaps := b.gaps ++ [b.texts.length], shown := b.shown ++ [[]] } := by
  have : opensComment [] = false := by decide
  unfold Scan.line
  simp [h1, h2, this]

/-- A line shown by the first run is shown again. -/
theorem again_line {f : Filter} {a b : Scan} (h : InStep f a b) {n : Int} {raw sp t' : Str} (hP : Stable f (cleaned f t'))
    (hraw : raw = sp ++ t') (hsp : f.commentOnly = true → Blanks sp) (hbl : ¬ Blanks t')
    (hopen : f.commentOnly = true → opensComment raw = false)
    (h1 : Scan.skips f { a with nest := n, carry := [] } raw = false)
    (h2 : Scan.hides f { a with nest := n, carry := [] } (cleaned f t') = false) :
    (Scan.line f b (cleaned f t')).shown = b.shown ++ [cleaned f t'] ∧
    (Scan.line f b (cleaned f t')).code = (a.code || Scan.heads { a with nest := n, carry := [] } (cleaned f t')) ∧
    (Scan.line f b (cleaned f t')).params = (if a.params || Scan.heads { a with nest := n, carry := [] } (cleaned f t')
      then decide ((cleaned f t').filter (fun c => c ≠ 32 ∧ c ≠ 9) ≠ b! ")") else a.params) ∧
    (Scan.line f b (cleaned f t')).inside = false ∧ (Scan.line f b (cleaned f t')).carry = [] ∧
    (Scan.line f b (cleaned f t')).nest ≤ 0 := by
  have ho : (f.commentOnly && (b.inside || opensComment (b.carry ++ cleaned f t'))) = false := by
    rw [h.inside, h.carry]
    cases hc : f.commentOnly with
    | false => rfl
    | true =>
      cases hop : opensComment (cleaned f t') with
      | false => simp [hop]
      | true =>
        exfalso
        obtain ⟨bs, r, g1, g2⟩ := (opensComment_iff _).1 hop
        rcases opens_cleaned f t' g1 g2 with hw | ⟨bs', r', g3, g4⟩
        · exact hP.slash hc hw bs (c! '*' :: r) g1 (by rw [g2]; simp)
        · have := (opensComment_iff raw).2 ⟨sp ++ bs', r', (hsp hc).append g3, by rw [hraw, g4]; simp⟩
          rw [hopen hc] at this
          exact absurd this (by simp)
  have hnb : ((b.carry ++ cleaned f t').all fun c => c = 32 || c = 9) = false := by
    cases hx : (b.carry ++ cleaned f t').all fun c => c = 32 || c = 9 with
    | false => rfl
    | true =>
      exfalso
      rw [h.carry, List.nil_append] at hx
      have := nonBlanks_blanks.2 (blanks_of_all hx)
      rw [nonBlanks_cleaned] at this
      exact hbl (nonBlanks_blanks.1 this)
  have hn : (if startsWithWord [b! "#APP", b! "# Begin ASM"] (b.carry ++ cleaned f t') = true then b.nest + 1
      else if startsWithWord [b! "#NO_APP", b! "# End ASM"] (b.carry ++ cleaned f t') = true then b.nest - 1 else b.nest) ≤ 0 := by
    have := h.nest
    rw [h.carry, List.nil_append, stable_noApp hP]
    simp only [Bool.false_eq_true, if_false]
    split <;> omega
  unfold Scan.line
  simp only [ho, hnb, Bool.false_eq_true, if_false]
  generalize (if startsWithWord [b! "#APP", b! "# Begin ASM"] (b.carry ++ cleaned f t') = true then b.nest + 1
      else if startsWithWord [b! "#NO_APP", b! "# End ASM"] (b.carry ++ cleaned f t') = true then b.nest - 1 else b.nest) = m at hn
  rw [if_neg (by omega : ¬ m > 0), h.carry, List.nil_append, cleaned_twice]
  obtain ⟨k1, k2, k3, k4, k5, k6⟩ := Scan.see_fields f { b with nest := m, carry := [] } (cleaned f t') (cleaned f t')
  have np : Scan.noProc f { b with nest := m, carry := [] } (cleaned f t') = false := by
    refine decide_eq_false ?_
    rintro ⟨hd, -, ho⟩
    exact hP.proc hd ((occurs_iff _ _).1 ho)
  have sk : Scan.skips f { b with nest := m, carry := [] } (cleaned f t') = false := by
    have h1 := of_decide_eq_false h1
    refine decide_eq_false ?_
    rintro (hl | ⟨hc, hcom⟩)
    · exact h1 (.inl hl)
    · refine h1 (.inr ⟨hc, ?_⟩)
      have hcode : b.code = a.code := h.code
      simp only [hcode] at hcom ⊢
      have key : (if a.code then CudaComment t' else OnlyComment t') := by
        have key : (if a.code then CudaComment t' else OnlyComment t') ∨ (∃ bs r, Blanks bs ∧ t' = bs ++ b! "/*" ++ r) ∨
            (f.whitespace = true ∧ ∃ bs r, Blanks bs ∧ cleaned f t' = bs ++ c! '/' :: r) := by
          cases hcode : a.code with
          | true => rw [hcode] at hcom; exact cudaComment_cleaned f t' hcom
          | false => rw [hcode] at hcom; exact onlyComment_cleaned f t' hcom
        rcases key with h2 | ⟨bs, r, h2, h3⟩ | ⟨hw, bs, r, h2, h3⟩
        · exact h2
        · have := (opensComment_iff raw).2 ⟨sp ++ bs, r, (hsp hc).append h2, by rw [hraw, h3]; simp⟩
          rw [hopen hc] at this
          exact absurd this (by simp)
        · exact absurd h3 (hP.slash hc hw bs r h2)
      rw [hraw]
      cases hcode : a.code with
      | true => rw [hcode] at key; exact cudaComment_blanks (hsp hc) key
      | false => rw [hcode] at key; exact onlyComment_blanks (hsp hc) key
  have hi : Scan.infos { b with nest := m, carry := [] } (cleaned f t') = Scan.infos { a with nest := n, carry := [] } (cleaned f t') := by
    unfold Scan.infos
    exact decide_eq_decide.2 (by simp only [h.code])
  have hh : Scan.heads { b with nest := m, carry := [] } (cleaned f t') = Scan.heads { a with nest := n, carry := [] } (cleaned f t') := by
    unfold Scan.heads
    exact decide_eq_decide.2 (by rw [hi])
  have hd : Scan.hides f { b with nest := m, carry := [] } (cleaned f t') = false := by
    rw [← h2]
    unfold Scan.hides
    rw [hi, hh]
    simp only [h.params]
  rw [np, sk, hd] at k6
  rw [np, sk, hh] at k5 k4
  refine ⟨by rw [k6]; simp, by rw [k4]; simp [h.code], by rw [k5]; simp [h.params], by rw [k1]; exact h.inside, by rw [k3], by rw [k2]; exact hn⟩

theorem line_shown_mono (f : Filter) (a : Scan) (l : Str) {t : Str} (ht : t ∈ a.shown) : t ∈ (Scan.line f a l).shown := by
  unfold Scan.line
  simp only
  split
  · exact ht
  split
  · exact List.mem_append_left _ ht
  · generalize (if startsWithWord [b! "#APP", b! "# Begin ASM"] (a.carry ++ l) = true then a.nest + 1
        else if startsWithWord [b! "#NO_APP", b! "# End ASM"] (a.carry ++ l) = true then a.nest - 1 else a.nest) = n
    generalize cleaned f (if n > 0 then fixLabelIndentation (a.carry ++ l) else a.carry ++ l) = x
    obtain ⟨-, -, -, -, -, k⟩ := Scan.see_fields f { a with nest := n, carry := [] } (a.carry ++ l) x
    rw [k]
    split
    · exact ht
    · exact List.mem_append_left _ ht

/-- No line shown has a line feed in it. -/
theorem shown_newline (f : Filter) (s : Str) : ∀ t ∈ (scan f s).shown, 10 ∉ t := by
  have key : ∀ (ls : List Str) (a : Scan), (∀ l ∈ ls, 10 ∉ l) → 10 ∉ a.carry → (∀ t ∈ a.shown, 10 ∉ t) →
      ∀ t ∈ (ls.foldl (Scan.line f) a).shown, 10 ∉ t := by
    intro ls
    induction ls with
    | nil => intro a _ _ h; exact h
    | cons l ls ih =>
      intro a hl hc hs
      have hraw : 10 ∉ a.carry ++ l := by
        intro hm
        rcases List.mem_append.1 hm with hm | hm
        · exact hc hm
        · exact hl l (by simp) hm
      have both : 10 ∉ (Scan.line f a l).carry ∧ ∀ t ∈ (Scan.line f a l).shown, 10 ∉ t := by
        unfold Scan.line
        simp only
        split
        · exact ⟨by simp, hs⟩
        split
        · refine ⟨hraw, fun t ht => ?_⟩
          rcases List.mem_append.1 ht with ht | ht
          · exact hs t ht
          · rw [List.mem_singleton.1 ht]; simp
        · generalize (if startsWithWord [b! "#APP", b! "# Begin ASM"] (a.carry ++ l) = true then a.nest + 1
            else if startsWithWord [b! "#NO_APP", b! "# End ASM"] (a.carry ++ l) = true then a.nest - 1 else a.nest) = n
          obtain ⟨sp, t', g1, -, -, g4, -⟩ := lineText_shown f n (a.carry ++ l)
          have e : cleaned f (if n > 0 then fixLabelIndentation (a.carry ++ l) else a.carry ++ l) = cleaned f t' := g4
          rw [e]
          obtain ⟨-, -, k3, -, -, k6⟩ := Scan.see_fields f { a with nest := n, carry := [] } (a.carry ++ l) (cleaned f t')
          rw [k3, k6]
          refine ⟨by simp, fun t ht => ?_⟩
          split at ht
          · exact hs t ht
          · rcases List.mem_append.1 ht with ht | ht
            · exact hs t ht
            · rw [List.mem_singleton.1 ht]
              exact cleaned_no_newline fun hm => hraw (by rw [g1]; exact List.mem_append_right _ hm)
      exact ih _ (fun x hx => hl x (by simp [hx])) both.1 both.2
  exact key (inputLines s) {} (fun l hl hm => (inputLines_chars hl hm).2 rfl) (by simp) (by simp)

/-- Invariant of the first run. -/
structure Plain (s : Str) (a : Scan) : Prop where
  carry : Blanks a.carry
  nest : NoInlineAsm s → a.nest ≤ 0

theorem again_step {f : Filter} {s : Str} {a : Scan} {l : Str} (hl : l ∈ inputLines s) (hp : Plain s a) (h : InStep f a (again f a))
    (hv : f.commentOnly = true → NoInlineAsm s ∨ 11 ∉ s ∧ 12 ∉ s ∧ 13 ∉ s)
    (hP : ∀ t ∈ (Scan.line f a l).shown, t ≠ [] → Stable f t) :
    Plain s (Scan.line f a l) ∧ InStep f (Scan.line f a l) (again f (Scan.line f a l)) := by
  have hmany : NoInlineAsm s → (if startsWithWord [b! "#APP", b! "# Begin ASM"] (a.carry ++ l) = true then a.nest + 1
      else if startsWithWord [b! "#NO_APP", b! "# End ASM"] (a.carry ++ l) = true then a.nest - 1 else a.nest) ≤ 0 := by
    intro hs
    have := hp.nest hs
    rw [noApp hs hp.carry hl]
    simp only [Bool.false_eq_true, if_false]
    split <;> omega
  unfold Scan.line at hP ⊢
  simp only at hP ⊢
  by_cases h1 : (f.commentOnly && (a.inside || opensComment (a.carry ++ l))) = true
  · rw [if_pos h1]
    refine ⟨⟨by simp [Blanks], hp.nest⟩, ?_⟩
    exact ⟨h.shown, h.code, h.params, h.inside, h.carry, h.nest⟩
  · rw [if_neg h1] at hP ⊢
    by_cases h2 : ((a.carry ++ l).all fun c => c = 32 || c = 9) = true
    · rw [if_pos h2]
      refine ⟨⟨blanks_of_all h2, hp.nest⟩, ?_⟩
      · have e : again f { a with carry := a.carry ++ l, gaps := a.gaps ++ [a.texts.length], shown := a.shown ++ [[]] } =
            if ended a.shown = true then again f a else Scan.line f (again f a) [] := by
          unfold again
          simp only [collapse_add]
          by_cases he : ended a.shown = true
          · simp [he]
          · simp [he]
        rw [e]
        split
        · rename_i he
          exact ⟨by rw [h.shown]; simp only [collapse_add]; simp [he], h.code, h.params, h.inside, h.carry, h.nest⟩
        · rename_i he
          rw [again_blank h.inside h.carry]
          exact ⟨by simp only [h.shown, collapse_add]; simp [he], h.code, h.params, h.inside, h.carry, h.nest⟩
    · rw [if_neg h2] at hP ⊢
      generalize (if startsWithWord [b! "#APP", b! "# Begin ASM"] (a.carry ++ l) = true then a.nest + 1
        else if startsWithWord [b! "#NO_APP", b! "# End ASM"] (a.carry ++ l) = true then a.nest - 1 else a.nest) = n at hP hmany ⊢
      obtain ⟨sp, t', g1, g2, g3, g4, g5⟩ := lineText_shown f n (a.carry ++ l)
      have e : cleaned f (if n > 0 then fixLabelIndentation (a.carry ++ l) else a.carry ++ l) = cleaned f t' := g4
      rw [e] at hP ⊢
      have hnb : ¬ Blanks (a.carry ++ l) := by
        intro hb
        apply h2
        rw [List.all_eq_true]
        intro c hc
        simpa [Blank] using hb c hc
      have hbl := g5 hnb
      have hsp : f.commentOnly = true → Blanks sp := by
        intro hc
        rcases hv hc with hs | hs
        · rcases g3 with rfl | g3
          · intro c hc; simp at hc
          · exact absurd (hmany hs) (by omega)
        · intro c hc
          have hm : c ∈ a.carry ++ l := by rw [g1]; exact List.mem_append_left _ hc
          rcases List.mem_append.1 hm with hm | hm
          · exact hp.carry c hm
          · obtain ⟨h2, h3⟩ := inputLines_chars hl hm
            refine space_blank (g2 c hc) h3 ?_ ?_ ?_
            · rintro rfl; exact hs.1 h2
            · rintro rfl; exact hs.2.1 h2
            · rintro rfl; exact hs.2.2 h2
      have hopen : f.commentOnly = true → opensComment (a.carry ++ l) = false := by
        intro hc
        cases ho : opensComment (a.carry ++ l) with
        | false => rfl
        | true => exact absurd (by rw [hc, ho]; simp) h1
      have hne : cleaned f t' ≠ [] := cleaned_ne hbl
      obtain ⟨k1, k2, k3, k4, k5, k6⟩ := Scan.see_fields f { a with nest := n, carry := [] } (a.carry ++ l) (cleaned f t')
      generalize hS : Scan.see f { a with nest := n, carry := [] } (a.carry ++ l) (cleaned f t') = S at k1 k2 k3 k4 k5 k6 hP ⊢
      by_cases hno : (Scan.noProc f { a with nest := n, carry := [] } (cleaned f t') || Scan.skips f { a with nest := n, carry := [] } (a.carry ++ l) ||
          Scan.hides f { a with nest := n, carry := [] } (cleaned f t')) = true
      · rw [if_pos hno] at k6
        have k6 : S.shown = a.shown := k6
        have hag : again f S = again f a := by unfold again; rw [k6]
        have hcode : S.code = a.code ∧ S.params = a.params := by
          cases c1 : Scan.noProc f { a with nest := n, carry := [] } (cleaned f t') with
          | true => rw [c1] at k4 k5; simp at k4 k5; exact ⟨k4, k5⟩
          | false =>
            cases c2 : Scan.skips f { a with nest := n, carry := [] } (a.carry ++ l) with
            | true => rw [c2] at k4 k5; simp at k4 k5; exact ⟨k4, k5⟩
            | false =>
              rw [c1, c2] at hno
              have c3 : Scan.hides f { a with nest := n, carry := [] } (cleaned f t') = true := by simpa using hno
              unfold Scan.hides at c3
              rw [Bool.and_eq_true] at c3
              have c4 : (a.params || Scan.heads { a with nest := n, carry := [] } (cleaned f t')) = false := by simpa using c3.1
              rw [Bool.or_eq_false_iff] at c4
              rw [c1, c2, c4.2] at k4 k5
              simp [c4.1] at k4 k5
              exact ⟨k4, by rw [k5, c4.1]⟩
        refine ⟨⟨by rw [k3]; simp [Blanks], by rw [k2]; exact hmany⟩, ?_⟩
        rw [hag]
        exact ⟨by rw [k6]; exact h.shown, by rw [hcode.1]; exact h.code, by rw [hcode.2]; exact h.params, h.inside, h.carry, h.nest⟩
      · rw [if_neg hno] at k6
        have k6 : S.shown = a.shown ++ [cleaned f t'] := k6
        simp only [Bool.or_eq_true, not_or, Bool.not_eq_true] at hno
        obtain ⟨⟨c1, c2⟩, c3⟩ := hno
        have hst : Stable f (cleaned f t') := hP _ (by rw [k6]; simp) hne
        have hag : again f S = Scan.line f (again f a) (cleaned f t') := by
          unfold again
          rw [k6, collapse_snoc hne, List.foldl_append]
          rfl
        obtain ⟨m1, m2, m3, m4, m5, m6⟩ := again_line h (n := n) hst g1 hsp hbl hopen c2 c3
        rw [c1, c2] at k4 k5
        refine ⟨⟨by rw [k3]; simp [Blanks], by rw [k2]; exact hmany⟩, ?_⟩
        · rw [hag]
          refine ⟨by rw [m1, k6, collapse_snoc hne, h.shown], by rw [m2, k4]; simp, by rw [m3, k5]; simp, m4, m5, m6⟩

theorem again_all {f : Filter} {s : Str} (hv : f.commentOnly = true → NoInlineAsm s ∨ 11 ∉ s ∧ 12 ∉ s ∧ 13 ∉ s) (n : Nat)
    (hP : ∀ t ∈ (((inputLines s).take n).foldl (Scan.line f) {}).shown, t ≠ [] → Stable f t) :
    Plain s (((inputLines s).take n).foldl (Scan.line f) {}) ∧
    InStep f (((inputLines s).take n).foldl (Scan.line f) {}) (again f (((inputLines s).take n).foldl (Scan.line f) {})) := by
  induction n with
  | zero => exact ⟨⟨by simp [Blanks], fun _ => by simp⟩, ⟨rfl, rfl, rfl, rfl, rfl, by simp [again, collapse, collapseFrom]⟩⟩
  | succ n ih =>
    by_cases hn : n < (inputLines s).length
    · rw [List.take_succ_eq_append_getElem hn, List.foldl_append] at hP ⊢
      simp only [List.foldl_cons, List.foldl_nil] at hP ⊢
      have hl : (inputLines s)[n] ∈ inputLines s := List.getElem_mem hn
      have mono : ∀ t ∈ (((inputLines s).take n).foldl (Scan.line f) {}).shown,
          t ∈ (Scan.line f (((inputLines s).take n).foldl (Scan.line f) {}) (inputLines s)[n]).shown := by
        intro t ht
        exact line_shown_mono f _ _ ht
      obtain ⟨i1, i2⟩ := ih fun t ht hne => hP t (mono t ht) hne
      exact again_step hl i1 i2 hv hP
    · have e : (inputLines s).take (n + 1) = (inputLines s).take n := by
        rw [List.take_of_length_le (by omega), List.take_of_length_le (by omega)]
      rw [e] at hP ⊢
      exact ih hP

end

end AsmParser
