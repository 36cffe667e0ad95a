/-
Lines that end in CR LF, for C32.
-/
import Verif.Props.TextVisible
import Verif.Proofs.Again
import Verif.Proofs.Quotes

namespace AsmParser

attribute [local irreducible] Re.search Re.fullMatch

/-! ### A CR at the end -/

theorem cr_split {x y r : Str} (h : x ++ [13] = y ++ r) (hy : y.getLast? ≠ some 13) : ∃ r', r = r' ++ [13] ∧ x = y ++ r' := by
  rcases List.append_eq_append_iff.1 h with ⟨a, h1, h2⟩ | ⟨a, h1, h2⟩
  · cases a with
    | nil => simp only [List.append_nil] at h1; subst h1; exact ⟨[], by simpa using h2.symm, by simp⟩
    | cons c a =>
      simp only [List.cons_append, List.cons.injEq] at h2
      obtain ⟨rfl, h2⟩ := h2
      have h2 : a ++ r = [] := h2.symm
      simp only [List.append_eq_nil_iff] at h2
      subst h1
      rw [h2.1] at hy
      simp at hy
  · exact ⟨a, h2, h1⟩

theorem cr_end {x y : Str} {c : Byte} (h : x ++ [13] = y ++ [c]) : c = 13 := by
  have := congrArg List.getLast? h
  simpa using this.symm

theorem squashLoop_cr (s : Str) : ∀ st, squashLoop st (s ++ [13]) = squashLoop st s ++ [13] := by
  induction s with
  | nil => intro st; cases st <;> rfl
  | cons c s ih => intro st; rw [List.cons_append, squashLoop, squashLoop, ih, List.append_assoc]

theorem expandTabsLoop_cr (s : Str) : ∀ out n, expandTabsLoop (s ++ [13]) out n = expandTabsLoop s out n ++ [13] := by
  induction s with
  | nil => intro out n; simp [expandTabsLoop]
  | cons c s ih =>
    intro out n
    rw [List.cons_append, expandTabsLoop, expandTabsLoop]
    split
    · exact ih _ _
    · exact ih _ _

/-- The last character is no blank. -/
def InkEnd (s : Str) : Prop := ∀ c, s.getLast? = some c → ¬ Blank c

theorem squash_cr {s : Str} (h : InkEnd s) : squashHorizontalWhitespace (s ++ [13]) true = squashHorizontalWhitespace s true ++ [13] := by
  have h2 : (s ++ [13]).all isWhitespace = false := by simp [isWhitespace]
  unfold squashHorizontalWhitespace
  simp only [Bool.true_and, h2, Bool.false_eq_true, ↓reduceIte, squashLoop_cr]
  split
  · rename_i ha
    rcases List.eq_nil_or_concat s with rfl | ⟨t, c, rfl⟩
    · rfl
    · exfalso
      refine h c (by simp) ?_
      simp only [List.all_append, Bool.and_eq_true, List.all_cons, List.all_nil, Bool.and_true, List.concat_eq_append] at ha
      simpa [isWhitespace, Blank] using ha.2
  · rfl

theorem literal_end {q : Str} (h : IsLiteral q) : q.getLast? = some c! '"' := by
  obtain ⟨t, rfl, ht⟩ := h
  have : ∀ {t}, LiteralTail t → t.getLast? = some c! '"' := by
    intro t ht
    induction ht with
    | close => rfl
    | plain _ _ h ih => rw [List.getLast?_cons, ih]; rfl
    | escape h ih => rw [List.getLast?_cons, List.getLast?_cons, ih]; rfl
  rw [List.getLast?_cons, this ht]; rfl

theorem literal_cr {s u q r : Str} (h : s ++ [13] = u ++ q ++ r) (hq : IsLiteral q) : ∃ r', r = r' ++ [13] ∧ s = u ++ q ++ r' := by
  refine cr_split h ?_
  rw [List.getLast?_append, literal_end hq]
  simp

theorem squashQuotes_cr (n : Nat) : ∀ {s : Str} (b : Bool), s.length ≤ n → InkEnd s →
    squashHorizontalWhitespaceWithQuotes (s ++ [13]) b = squashHorizontalWhitespaceWithQuotes s b ++ [13] := by
  induction n with
  | zero =>
    intro s b hs h
    have : s = [] := by simpa using hs
    subst this
    have h0 : NoLiteral [] := by
      intro u q r e hq
      have : q = [] := by simp at e; exact e.2.1
      exact literal_ne hq this
    have h1 : NoLiteral ([] ++ [13]) := by
      intro u q r e hq
      obtain ⟨r', -, e⟩ := literal_cr e hq
      exact h0 u q r' e hq
    rw [squashQuotes_none b h0, squashQuotes_none b h1, squash_cr h]
  | succ n ih =>
    intro s b hs h
    by_cases hn : NoLiteral s
    · have h1 : NoLiteral (s ++ [13]) := by
        intro u q r e hq
        obtain ⟨r', -, e⟩ := literal_cr e hq
        exact hn u q r' e hq
      rw [squashQuotes_none b hn, squashQuotes_none b h1, squash_cr h]
    · obtain ⟨u, q, r, hf⟩ := firstLiteral_exists s hn
      have hf' : FirstLiteral (s ++ [13]) u q (r ++ [13]) := by
        refine ⟨by rw [hf.eq]; simp, hf.lit, fun u' q' r' e hq => ?_⟩
        obtain ⟨r'', -, e⟩ := literal_cr e hq
        exact hf.first u' q' r'' e hq
      rw [squashQuotes_first b hf, squashQuotes_first b hf', ih true (by have := (firstLiteral_shorter hf).2; omega), List.append_assoc,
        List.append_assoc, List.append_assoc]
      intro c hc
      refine h c ?_
      rw [hf.eq, List.getLast?_append, hc]
      rfl

theorem inkEnd_expandTabs {s : Str} (h : InkEnd s) : InkEnd (expandTabs s) := by
  rcases List.eq_nil_or_concat s with rfl | ⟨t, c, rfl⟩
  · intro c hc; simp [expandTabs, expandTabsLoop] at hc
  · have hc := h c (by simp)
    have h9 : (c == 9) = false := by
      simp only [Blank, not_or] at hc
      simpa using hc.2
    have : ∀ (t out : Str) (n : Nat), expandTabsLoop (t ++ [c]) out n = expandTabsLoop t out n ++ [c] := by
      intro t
      induction t with
      | nil => intro out n; simp [expandTabsLoop, h9]
      | cons d t ih =>
        intro out n
        rw [List.cons_append, expandTabsLoop, expandTabsLoop]
        split
        · exact ih _ _
        · exact ih _ _
    intro d hd
    rw [expandTabs, List.concat_eq_append, this, List.getLast?_append] at hd
    simp only [List.getLast?_singleton, Option.some_or, Option.some.injEq] at hd
    exact hd ▸ hc

theorem cleaned_cr {f : Filter} {l : Str} (h : f.whitespace = true → InkEnd l) : cleaned f (l ++ [13]) = cleaned f l ++ [13] := by
  unfold cleaned
  have e : expandTabs (l ++ [13]) = expandTabs l ++ [13] := expandTabsLoop_cr l [] 0
  rw [e]
  split
  · rename_i hw
    exact squashQuotes_cr _ true (Nat.le_refl _) (inkEnd_expandTabs (h hw))
  · rfl

/-! ### What a line is -/

theorem blanks_cr {bs : Str} (h : Blanks bs) : bs.getLast? ≠ some 13 := by
  intro e
  have := h 13 (List.mem_of_getLast? e)
  revert this; decide

theorem startsWith_cr (kws : List Str) (hk : ∀ w ∈ kws, w ≠ [] ∧ w.getLast? ≠ some 13) (x : Str) :
    StartsWithOneOf kws (x ++ [13]) ↔ StartsWithOneOf kws x := by
  constructor
  · rintro ⟨bs, kw, r, hb, hm, e⟩
    obtain ⟨r', -, e⟩ := cr_split e (by
      rw [List.getLast?_append]
      cases hl : kw.getLast? with
      | none => exact absurd (List.getLast?_eq_none_iff.1 hl) (hk kw hm).1
      | some c => have := (hk kw hm).2; rw [hl] at this; simpa using this)
    exact ⟨bs, kw, r', hb, hm, e⟩
  · rintro ⟨bs, kw, r, hb, hm, rfl⟩
    exact ⟨bs, kw, r ++ [13], hb, hm, by simp⟩

theorem contains_cr {x w : Str} (hw : w ≠ []) (hl : w.getLast? ≠ some 13) : Contains (x ++ [13]) w ↔ Contains x w := by
  constructor
  · rintro ⟨a, b, e⟩
    obtain ⟨r', -, e⟩ := cr_split e (by
      rw [List.getLast?_append]
      cases h : w.getLast? with
      | none => exact absurd (List.getLast?_eq_none_iff.1 h) hw
      | some c => rw [h] at hl; simpa using hl)
    exact ⟨a, r', e⟩
  · rintro ⟨a, b, rfl⟩
    exact ⟨a, b ++ [13], by simp⟩

theorem directive_cr (x : Str) : Directive (x ++ [13]) ↔ Directive x := by
  constructor
  · rintro ⟨bs, r, hb, e⟩
    obtain ⟨r', -, e⟩ := cr_split (y := bs ++ [c! '.']) (r := r) (by rw [e]; simp) (by simp)
    exact ⟨bs, r', hb, by rw [e]; simp⟩
  · rintro ⟨bs, r, hb, rfl⟩
    exact ⟨bs, r ++ [13], hb, by simp⟩

theorem definesLabel_cr (x l : Str) : DefinesLabel (x ++ [13]) l ↔ DefinesLabel x l := by
  constructor
  · rintro ⟨h1, h2, ⟨r, e⟩ | ⟨y, bs, r, e, h3, h4⟩⟩
    · obtain ⟨r', -, e⟩ := cr_split (y := l ++ [c! ':']) (r := r) (by rw [e]; simp) (by simp)
      exact ⟨h1, h2, .inl ⟨r', by rw [e]; simp⟩⟩
    · obtain ⟨r', -, e⟩ := cr_split (y := y :: b! "proc" ++ bs ++ l ++ [c! ':']) (r := r) (by rw [e]; simp) (by rw [List.getLast?_append]; simp)
      exact ⟨h1, h2, .inr ⟨y, bs, r', by rw [e]; simp, h3, h4⟩⟩
  · rintro ⟨h1, h2, ⟨r, rfl⟩ | ⟨y, bs, r, rfl, h3, h4⟩⟩
    · exact ⟨h1, h2, .inl ⟨r ++ [13], by simp⟩⟩
    · exact ⟨h1, h2, .inr ⟨y, bs, r ++ [13], by simp, h3, h4⟩⟩

theorem assignsLabel_cr (x l : Str) : AssignsLabel (x ++ [13]) l ↔ AssignsLabel x l := by
  constructor
  · rintro ⟨c, t, bs, r, h1, h2, h3, h4, h5, e⟩
    obtain ⟨r', -, e⟩ := cr_split (y := l ++ bs ++ [c! '=']) (r := r) (by rw [e]; simp) (by rw [List.getLast?_append]; simp)
    exact ⟨c, t, bs, r', h1, h2, h3, h4, h5, by rw [e]; simp⟩
  · rintro ⟨c, t, bs, r, h1, h2, h3, h4, h5, rfl⟩
    exact ⟨c, t, bs, r ++ [13], h1, h2, h3, h4, h5, by simp⟩

theorem definesOrAssigns_cr {x : Str} (h1 : x.getLast? ≠ some c! '=') (h2 : ∀ k, ¬ CudaHeader x k) (l : Str) :
    DefinesOrAssigns (x ++ [13]) l ↔ DefinesOrAssigns x l := by
  unfold DefinesOrAssigns
  rw [definesLabel_cr, assignsLabel_cr]
  have a1 : ¬ AssignsOnly (x ++ [13]) l := by
    rintro ⟨bs, bs', c, t, -, -, -, -, -, -, e⟩
    exact absurd (cr_end e) (by decide)
  have a2 : ¬ AssignsOnly x l := by
    rintro ⟨bs, bs', c, t, -, -, -, -, -, -, e⟩
    exact h1 (by rw [e, List.getLast?_append]; rfl)
  have a3 : ¬ CudaHeader (x ++ [13]) l := by
    rintro ⟨a, bs, ret, c, t, -, -, -, -, -, -, e⟩
    exact absurd (cr_end e) (by decide)
  simp [a1, a2, a3, h2]

theorem plainDirective_cr {x : Str} (h1 : x.getLast? ≠ some c! '=') (h2 : ∀ k, ¬ CudaHeader x k) :
    PlainDirective (x ++ [13]) ↔ PlainDirective x := by
  unfold PlainDirective
  rw [directive_cr, startsWith_cr dataDirectives (by decide), contains_cr (by decide) (by decide)]
  simp only [definesOrAssigns_cr h1 h2]

theorem opensComment_iff' (l : Str) : opensComment l = true ↔ ∃ bs r, Blanks bs ∧ l = bs ++ b! "/*" ++ r := by
  unfold opensComment
  constructor
  · intro h
    obtain ⟨r, hr⟩ := List.isPrefixOf_iff_prefix.1 h
    refine ⟨l.takeWhile fun c => c = 32 || c = 9, r, ?_, ?_⟩
    · intro c hc
      have := List.all_eq_true.1 (List.all_takeWhile (p := fun c => decide (c = 32) || decide (c = 9)) (l := l)) c hc
      simpa [Blank] using this
    · rw [List.append_assoc, hr, List.takeWhile_append_dropWhile]
  · rintro ⟨bs, r, hb, rfl⟩
    rw [List.append_assoc, List.dropWhile_append_of_pos (fun c hc => by simpa [Blank] using hb c hc)]
    rw [List.isPrefixOf_iff_prefix]
    exact ⟨r, rfl⟩

theorem opensComment_cr (l : Str) : opensComment (l ++ [13]) = opensComment l := by
  rw [Bool.eq_iff_iff, opensComment_iff', opensComment_iff']
  constructor
  · rintro ⟨bs, r, hb, e⟩
    obtain ⟨r', -, e⟩ := cr_split e (by rw [List.getLast?_append]; simp)
    exact ⟨bs, r', hb, e⟩
  · rintro ⟨bs, r, hb, rfl⟩
    exact ⟨bs, r ++ [13], hb, by simp⟩

theorem onlyComment_cr {l : Str} (ho : opensComment l = false) : OnlyComment (l ++ [13]) ↔ OnlyComment l := by
  have key : ∀ (bs w r : Str), Blanks bs → w ≠ [] → w.getLast? ≠ some 13 → l ++ [13] = bs ++ (w ++ r) → ∃ r', r = r' ++ [13] ∧ l = bs ++ (w ++ r') := by
    intro bs w r hb hw hl e
    obtain ⟨r', h1, e⟩ := cr_split (y := bs ++ w) (r := r) (by rw [e]; simp) (by
      rw [List.getLast?_append]
      cases h : w.getLast? with
      | none => exact absurd (List.getLast?_eq_none_iff.1 h) hw
      | some c => rw [h] at hl; simpa using hl)
    exact ⟨r', h1, by rw [e]; simp⟩
  constructor
  · rintro ⟨bs, t, hb, e, ⟨r, rfl⟩ | ⟨r, rfl⟩ | ⟨r, rfl⟩ | ⟨x, rfl⟩ | ⟨r, rfl, hr⟩⟩
    · obtain ⟨r', -, e⟩ := key bs _ r hb (by decide) (by decide) e
      exact ⟨bs, _, hb, e, .inl ⟨r', rfl⟩⟩
    · obtain ⟨r', -, e⟩ := key bs _ r hb (by decide) (by decide) e
      exact ⟨bs, _, hb, e, .inr (.inl ⟨r', rfl⟩)⟩
    · obtain ⟨r', -, e⟩ := key bs _ r hb (by decide) (by decide) e
      exact ⟨bs, _, hb, e, .inr (.inr (.inl ⟨r', rfl⟩))⟩
    · have := congrArg List.getLast? e
      rw [List.getLast?_append, List.getLast?_append, List.getLast?_append] at this
      simp at this
    · obtain ⟨r', rfl, e'⟩ := key bs [c! ';'] r hb (by decide) (by decide) e
      refine ⟨bs, _, hb, e', .inr (.inr (.inr (.inr ⟨r', rfl, ?_⟩)))⟩
      rintro ⟨ws, rfl, hw⟩
      refine hr ⟨ws ++ [13], by simp, fun c hc => ?_⟩
      rcases List.mem_append.1 hc with hc | hc
      · exact hw c hc
      · rw [List.mem_singleton.1 hc]; unfold Space; decide
  · rintro ⟨bs, t, hb, rfl, ⟨r, rfl⟩ | ⟨r, rfl⟩ | ⟨r, rfl⟩ | ⟨x, rfl⟩ | ⟨r, rfl, hr⟩⟩
    · exact ⟨bs, _, hb, by rw [List.append_assoc], .inl ⟨r ++ [13], by simp⟩⟩
    · exact ⟨bs, _, hb, by rw [List.append_assoc], .inr (.inl ⟨r ++ [13], by simp⟩)⟩
    · exact ⟨bs, _, hb, by rw [List.append_assoc], .inr (.inr (.inl ⟨r ++ [13], by simp⟩))⟩
    · have : opensComment (bs ++ (b! "/*" ++ x ++ b! "*/")) = true := (opensComment_iff' _).2 ⟨bs, x ++ b! "*/", hb, by simp⟩
      rw [ho] at this; cases this
    · refine ⟨bs, _, hb, by rw [List.append_assoc], .inr (.inr (.inr (.inr ⟨r ++ [13], by simp, ?_⟩)))⟩
      rintro ⟨ws, e, hw⟩
      cases r with
      | nil => simp at e
      | cons c r =>
        simp only [List.cons_append, List.cons.injEq] at e
        obtain ⟨rfl, rfl⟩ := e
        exact hr ⟨r, rfl, fun c hc => hw c (by simp [hc])⟩

/-! ### Lists of lines -/

theorem outsideComments_cr (ls : List Str) : ∀ b, outsideComments b (ls.map (· ++ [13])) = (outsideComments b ls).map (· ++ [13]) := by
  induction ls with
  | nil => intro b; rfl
  | cons l ls ih =>
    intro b
    have ho : occurs b! "*/" (l ++ [13]) = occurs b! "*/" l := by
      rw [Bool.eq_iff_iff, occurs_iff, occurs_iff]
      exact contains_cr (by decide) (by decide)
    rw [List.map_cons, outsideComments, outsideComments, opensComment_cr, ho, ih, ih]
    split <;> rfl

theorem outsideComments_opens (ls : List Str) : ∀ b, ∀ l ∈ outsideComments b ls, opensComment l = false := by
  induction ls with
  | nil => intro b l h; simp [outsideComments] at h
  | cons x ls ih =>
    intro b l h
    rw [outsideComments] at h
    split at h
    · exact ih _ l h
    · rename_i hx
      simp only [Bool.or_eq_true, not_or, Bool.not_eq_true] at hx
      rcases List.mem_cons.1 h with rfl | h
      · exact hx.2
      · exact ih _ l h

theorem collapseFrom_filled (b : Bool) (ls : List Str) (h : ∀ l ∈ ls, l ≠ []) : collapseFrom b ls = ls := by
  induction ls generalizing b with
  | nil => rfl
  | cons l ls ih => rw [collapseFrom, if_neg (h l (by simp)), ih _ fun l hl => h l (by simp [hl])]

theorem collapseFrom_filter (b : Bool) (ls : List Str) : (collapseFrom b ls).filter (· ≠ []) = ls.filter (· ≠ []) := by
  induction ls generalizing b with
  | nil => rfl
  | cons l ls ih =>
    rw [collapseFrom]
    by_cases h : l = []
    · subst h
      rw [List.filter_cons_of_neg (by simp), ← ih true]
      cases b <;> simp
    · rw [if_neg h, List.filter_cons_of_pos (by simpa using h), List.filter_cons_of_pos (by simpa using h), ih]

end AsmParser
