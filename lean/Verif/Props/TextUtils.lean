/-
Properties C24-C29 and C50: the line utilities of text mode.
-/
import Verif.Proofs.TextUtils
import Verif.Proofs.Quotes
import Verif.Proofs.UsedLabels
import Verif.Proofs.Directives
import Verif.Proofs.Utf8

namespace AsmParser

/-! ### C24 -/

/-- C24: no tab is left, and every tab is replaced by one to eight spaces, everything else staying as it is. -/
theorem C24_replace (s : Str) : 9 ∉ expandTabs s ∧
    ∃ ns, ns.length = s.count 9 ∧ (∀ n ∈ ns, 1 ≤ n ∧ n ≤ 8) ∧ expandTabs s = replaceTabs ns s := by
  rw [expandTabs_eq]
  exact ⟨padTabs_no_tab 0 s, padTabs_replace 0 s⟩

/-- C24: the exact number of spaces depends on the number of characters other than tabs before the tab. -/
theorem C24_exact (a b : Str) : ∃ t, expandTabs (a ++ 9 :: b) = expandTabs a ++ List.replicate (8 - nonTabs a % 8) 32 ++ t := by
  refine ⟨padTabs (nonTabs a) b, ?_⟩
  rw [expandTabs_eq, expandTabs_eq, padTabs_append]
  simp [padTabs]

/-- C24: if all tabs except the last one have a multiple of eight other characters before them (so in particular for
a line with one tab, or whose only tabs but one are at its beginning), tabs are expanded to the tab stops. -/
theorem C24_aligned_partial (s : Str) (h : ∀ a b, s = a ++ 9 :: b → 9 ∈ b → nonTabs a % 8 = 0) :
    expandTabs s = tabStops 0 s := by
  rw [expandTabs_eq]
  exact padTabs_tabStops s 0 0 rfl (by simpa using h)

example : tabStops 0 b! "\t\tmovl\t%eax" = b! "                movl    %eax" := by decide
example : ∀ a b, b! "\tmovl\t%eax" = a ++ 9 :: b → 9 ∈ b → nonTabs a % 8 = 0 := by
  intro a b e h
  match a with
  | [] => rfl
  | [_] => simp at e
  | [_, _] => simp at e
  | [_, _, _] => simp at e
  | [_, _, _, _] => simp at e
  | [_, _, _, _, _] => simp at e; rw [← e.2.2.2.2.2] at h; simp at h
  | _ :: _ :: _ :: _ :: _ :: x :: a =>
    have := congrArg (fun s => s.drop 6) e
    simp only [List.cons_append, List.drop_succ_cons, List.drop_zero] at this
    have h' : (9 : Byte) ∈ a ++ 9 :: b := by simp
    rw [← this] at h'
    simp at h'

/-- C24 is violated when an earlier tab was not in a column divisible by 8: the last letter is in column 14, not 16. -/
theorem C24_violation : expandTabs b! "ab\tcd\te" = b! "ab      cd    e" ∧ tabStops 0 b! "ab\tcd\te" = b! "ab      cd      e" := by
  decide

/-! ### C25 -/

theorem all_blank_nonBlanks {s : Str} (h : s.all isWhitespace = true) : nonBlanks s = [] := by
  unfold nonBlanks
  rw [List.filter_eq_nil_iff]
  intro c hc
  have := List.all_eq_true.1 h c hc
  simp [blank_iff.2 this]

/-- C25: only blanks are removed, and the blanks that are left are spaces. -/
theorem C25_nonBlanks (s : Str) (b : Bool) : nonBlanks (squashHorizontalWhitespace s b) = nonBlanks s ∧
    ∀ c ∈ squashHorizontalWhitespace s b, Blank c → c = 32 := by
  unfold squashHorizontalWhitespace
  simp only
  split
  · rename_i h
    rw [Bool.and_eq_true] at h
    rw [all_blank_nonBlanks h.2]
    exact ⟨rfl, by simp⟩
  · exact ⟨squashLoop_nonBlanks _ _, squashLoop_blank _ _⟩

/-- C25: two blanks are adjacent at most at the beginning of the line (and then there are exactly two). -/
theorem C25_runs (s a b : Str) (h : squashHorizontalWhitespace s true = a ++ [32, 32] ++ b) : a = [] := by
  unfold squashHorizontalWhitespace at h
  simp only [Bool.true_and, ↓reduceIte] at h
  split at h
  · simp at h
  · revert h
    refine start_cases (P := fun s => squashLoop .start s = a ++ [32, 32] ++ b → a = []) s ?_ ?_ ?_ ?_ ?_
    · intro h; simp [squashLoop] at h
    · intro c s hc h
      rw [squash_start_word hc] at h
      cases a with
      | nil => rfl
      | cons x a =>
        simp only [List.cons_append, List.cons.injEq] at h
        exact absurd (.inl rfl) (noPair_infix (squeeze_noPair true s) h.2 (.inl rfl))
    · intro x c s hb hc h
      rw [squash_start_one hb hc] at h
      match a, h with
      | [], h => rfl
      | [y], h =>
        simp only [List.cons_append, List.nil_append, List.cons.injEq] at h
        exact absurd (.inl h.2.1) hc
      | y :: z :: a, h =>
        simp only [List.cons_append, List.cons.injEq] at h
        exact absurd (.inl rfl) (noPair_infix (squeeze_noPair true s) h.2.2 (.inl rfl))
    · intro x c s hb hc h
      rw [squash_start_two hb hc] at h
      match a, h with
      | [], h => rfl
      | [y], h =>
        simp only [List.cons_append, List.nil_append, List.cons.injEq] at h
        have := squeeze_noPair true s
        rw [← List.nil_append (squeeze true s), List.nil_append, h.2.2] at this
        exact absurd (this.1 (.inl rfl)) (by simp)
      | y :: z :: a, h =>
        simp only [List.cons_append, List.cons.injEq] at h
        exact absurd (.inl rfl) (noPair_infix (squeeze_noPair true s) h.2.2 (.inl rfl))
    · intro x hb h
      rw [squash_start_single hb] at h
      have := congrArg List.length h
      simp at this
      omega

/-- C25: the words of the line stay separate if the line is indented by two blanks or more, or its first word has two
characters or more. -/
theorem C25_words_partial (s : Str) (h : 2 ≤ (indentation s).length ∨ ∀ w ∈ (words s).head?, 2 ≤ w.length) :
    words (squashHorizontalWhitespace s true) = words s := by
  have sq : ∀ c s, ¬ Blank c → (∀ w ∈ (words (c :: s)).head?, 2 ≤ w.length) → words (c :: squeeze true s) = words (c :: s) := by
    intro c s hc hw
    have h1 : words (c :: s) = wordsFrom [c] s := by show wordsFrom [] (c :: s) = _; rw [wordsFrom_cons hc]; rfl
    have h2 : ∀ t, words (c :: t) = wordsFrom [c] t := by intro t; show wordsFrom [] (c :: t) = _; rw [wordsFrom_cons hc]; rfl
    rw [h1] at hw
    rw [h2, h2]
    cases s with
    | nil => rfl
    | cons d s =>
      by_cases hd : Blank d
      · have := hw [c] (by simp [wordsFrom, hd])
        simp at this
      · have e : squeeze true (d :: s) = squeeze false (d :: s) := by simp [squeeze, hd]
        rw [e]
        exact wordsFrom_squeeze [c] false (d :: s) (by simp)
  unfold squashHorizontalWhitespace
  simp only [Bool.true_and, ↓reduceIte]
  split
  · rename_i hb
    have := wordsFrom_ne [] s hb
    simp only [↓reduceIte] at this
    exact this.symm
  · revert h
    refine start_cases (P := fun s => (2 ≤ (indentation s).length ∨ ∀ w ∈ (words s).head?, 2 ≤ w.length) → words (squashLoop .start s) = words s)
      s ?_ ?_ ?_ ?_ ?_
    · intro _; rfl
    · intro c s hc h
      rw [squash_start_word hc]
      refine sq c s hc ?_
      rcases h with h | h
      · simp [indentation, hc] at h
      · exact h
    · intro x c s hb hc h
      rw [squash_start_one hb hc, words_blank (.inl rfl), words_blank hb]
      refine sq c s hc ?_
      rcases h with h | h
      · simp [indentation, hb, hc] at h
      · rwa [words_blank hb] at h
    · intro x c s hb hc h
      rw [squash_start_two hb hc, words_blank (.inl rfl), words_blank (.inl rfl), words_blank hb, words_blank hc]
      exact wordsFrom_squeeze [] true s (by simp)
    · intro x hb _
      rw [squash_start_single hb, words_blank (.inl rfl), words_blank hb]

example : squashHorizontalWhitespace b! "   movl \t %eax,  %ebx" true = b! "  movl %eax, %ebx" := by decide
example : 2 ≤ (indentation b! "   movl \t %eax,  %ebx").length := by decide
example : ∀ w ∈ (words b! "mov  a, b").head?, 2 ≤ w.length := by decide

/-- C25 is violated for a one-character first word: it is glued to the next word. -/
theorem C25_violation : squashHorizontalWhitespace b! "x y" true = b! "xy" ∧ squashHorizontalWhitespace b! " b loop" true = b! " bloop" ∧
    words b! "x y" = [b! "x", b! "y"] ∧ words b! "xy" = [b! "xy"] := by
  decide

/-! ### C26 -/

/-- C26: the string literals of a line appear unchanged and in order in the squashed line. -/
theorem C26_literals (s : Str) (qs : List Str) (b : Bool) (h : Literals s qs) :
    OccurInOrder qs (squashHorizontalWhitespaceWithQuotes s b) := by
  induction h generalizing b with
  | none _ => trivial
  | cons h _ ih => exact ⟨_, _, squashQuotes_first b h, ih true⟩

/-- C26: what is between the literals is squashed as a line of its own. -/
theorem C26_between (s : Str) (b : Bool) :
    (NoLiteral s → squashHorizontalWhitespaceWithQuotes s b = squashHorizontalWhitespace s true) ∧
    ∀ u q r, FirstLiteral s u q r → squashHorizontalWhitespaceWithQuotes s b =
      squashHorizontalWhitespace u true ++ q ++ squashHorizontalWhitespaceWithQuotes r true :=
  ⟨squashQuotes_none b, fun _ _ _ => squashQuotes_first b⟩

/-- Every line has a list of literals. -/
theorem C26_total (s : Str) : ∃ qs, Literals s qs := by
  suffices h : ∀ n (s : Str), s.length ≤ n → ∃ qs, Literals s qs from h _ s (Nat.le_refl _)
  intro n
  induction n with
  | zero =>
    intro s hs
    refine ⟨[], .none fun u q r e hq => ?_⟩
    have h1 := literal_ne hq
    have : s = [] := by simpa using hs
    subst this
    simp at e
    exact h1 e.2.1
  | succ n ih =>
    intro s hs
    by_cases h : NoLiteral s
    · exact ⟨[], .none h⟩
    · obtain ⟨u, q, r, hf⟩ := firstLiteral_exists s h
      have := (firstLiteral_shorter hf).2
      obtain ⟨qs, hq⟩ := ih r (by omega)
      exact ⟨q :: qs, .cons hf hq⟩

/-- C26: only blanks are removed. -/
theorem C26_nonBlanks (s : Str) (b : Bool) : nonBlanks (squashHorizontalWhitespaceWithQuotes s b) = nonBlanks s := by
  have app : ∀ a b : Str, nonBlanks (a ++ b) = nonBlanks a ++ nonBlanks b := by intro a b; simp [nonBlanks]
  obtain ⟨qs, h⟩ := C26_total s
  induction h generalizing b with
  | none h => rw [squashQuotes_none b h]; exact (C25_nonBlanks _ true).1
  | cons h _ ih => rw [squashQuotes_first b h, h.eq, app, app, app, app, ih, (C25_nonBlanks _ true).1]

example : squashHorizontalWhitespaceWithQuotes b! "  .string   \"a   \\\"b\"   # x   y" true = b! "  .string \"a   \\\"b\"  # x y" := by
  decide
example : IsLiteral b! "\"a   \\\"b\"" :=
  ⟨_, rfl, .plain (by decide) (by decide) <| .plain (by decide) (by decide) <| .plain (by decide) (by decide) <|
    .plain (by decide) (by decide) <| .escape <| .plain (by decide) (by decide) .close⟩

/-! ### C27 -/

/-- C27: the result is a prefix of the line without comment characters. -/
theorem C27_prefix (line : Str) : getLineWithoutComment line <+: line ∧ ∀ c ∈ getLineWithoutComment line, ¬ CommentChar c := by
  refine ⟨List.take_prefix _ _, ?_⟩
  intro c hc hcc
  unfold getLineWithoutComment at hc
  obtain ⟨u, v, e⟩ := List.append_of_mem hc
  have hlen : u.length < lwcLoop line 0 false true line.length := by
    have := congrArg List.length e
    simp at this
    omega
  have hl : line = u ++ c :: (v ++ line.drop (lwcLoop line 0 false true line.length)) := by
    conv => lhs; rw [← List.take_append_drop (lwcLoop line 0 false true line.length) line, e]
    simp
  have := lwcLoop_bound line 0 line.length false true (by simp) u _ c hl (comment_iff.1 hcc)
  omega

/-- C27: a line with a comment loses exactly the comment and the blanks before it (all blanks are kept if there is
nothing else). -/
theorem C27_comment (code v : Str) (c : Byte) (hc : CommentChar c) (hn : ∀ d ∈ code, ¬ CommentChar d) :
    getLineWithoutComment (code ++ c :: v) = if Blanks code then code else trimRight code := by
  have h := lwcLoop_comment code v c (comment_iff.1 hc) (fun x hx => by
    cases hh : isCommentChar x
    · rfl
    · exact absurd (comment_iff.2 hh) (hn x hx)) [] false true (code ++ c :: v).length (by simp) (by simp) (by simp) (by simp)
  unfold getLineWithoutComment
  simp only [List.length_nil, List.nil_append] at h
  rw [h]
  have hb : (code.all isWhitespace = true) ↔ Blanks code := by
    rw [List.all_eq_true]
    simp only [Blanks, blank_iff]
  have htr : trimRight code <+: code := by
    unfold trimRight
    have := List.dropWhile_suffix (fun c => decide (Blank c)) (l := code.reverse)
    have := List.reverse_prefix.2 this
    rwa [List.reverse_reverse] at this
  by_cases hbb : Blanks code
  · rw [if_pos (hb.2 hbb), if_pos hbb, List.take_left' rfl]
  · rw [if_neg (fun h => hbb (hb.1 h)), if_neg hbb]
    obtain ⟨t, ht⟩ := htr
    generalize trimRight code = u at ht
    rw [← ht, List.append_assoc, List.take_left' rfl]

theorem lwc_words (a bs w : Str) (ha : a ≠ []) (hl : ∀ c ∈ a.getLast?, ¬ Blank c) (hb : Blanks bs) (hbn : bs ≠ [])
    (hw : ∀ c ∈ w, ¬ Blank c) (hn : ∀ c ∈ a ++ bs ++ w, ¬ CommentChar c) : getLineWithoutComment (a ++ bs ++ w) = a := by
  have nc : ∀ x ∈ a ++ bs ++ w, isCommentChar x = false := fun x hx => by
    cases hh : isCommentChar x
    · rfl
    · exact absurd (comment_iff.2 hh) (hn x hx)
  unfold getLineWithoutComment
  obtain ⟨l', h1⟩ := lwcLoop_code a (bs ++ w) 0 (a ++ bs ++ w).length false true (by simp) (fun x hx => nc x (by simp [hx])) ha
    (fun x hx => by
      cases hh : isWhitespace x
      · rfl
      · exact absurd (blank_iff.2 hh) (hl x hx))
  rw [List.append_assoc] at h1 ⊢
  rw [h1, lwcLoop_blanks bs w _ l' (fun x hx => blank_iff.1 (hb x hx)) hbn,
    lwcLoop_word w _ _ true false (fun x hx => by
      cases hh : isWhitespace x
      · rfl
      · exact absurd (blank_iff.2 hh) (hw x hx)) (fun x hx => nc x (by simp [hx]))]
  rw [Nat.zero_add, List.take_left' rfl]

/-- C27: a line without comment that has at most one word, or ends with blanks behind its last word, only loses these
blanks. -/
theorem C27_no_comment_partial (line : Str) (hn : ∀ c ∈ line, ¬ CommentChar c) :
    (∀ bs w, line = bs ++ w → Blanks bs → (∀ c ∈ w, ¬ Blank c) → getLineWithoutComment line = line) ∧
    (∀ a bs, line = a ++ bs → a ≠ [] → (∀ c ∈ a.getLast?, ¬ Blank c) → Blanks bs → bs ≠ [] → getLineWithoutComment line = a) := by
  constructor
  · rintro bs w rfl hb hw
    unfold getLineWithoutComment
    rw [lwcLoop_indent bs w 0 _ (fun x hx => blank_iff.1 (hb x hx)),
      lwcLoop_word w _ _ false true (fun x hx => by
        cases hh : isWhitespace x
        · rfl
        · exact absurd (blank_iff.2 hh) (hw x hx)) (fun x hx => by
        cases hh : isCommentChar x
        · rfl
        · exact absurd (comment_iff.2 hh) (hn x (by simp [hx])))]
    exact List.take_length
  · rintro a bs rfl ha hl hb hbn
    have := lwc_words a bs [] ha hl hb hbn (by simp) (by simpa using hn)
    simpa using this

/-- C27 is violated by every line without comment of more than one word: the last word is dropped. -/
theorem C27_violation (a bs w : Str) (ha : a ≠ []) (hl : ∀ c ∈ a.getLast?, ¬ Blank c) (hb : Blanks bs) (hbn : bs ≠ [])
    (hw : ∀ c ∈ w, ¬ Blank c) (hn : ∀ c ∈ a ++ bs ++ w, ¬ CommentChar c) : getLineWithoutComment (a ++ bs ++ w) = a :=
  lwc_words a bs w ha hl hb hbn hw hn

example : getLineWithoutComment b! "  mov eax, ebx" = b! "  mov eax," := by decide
example : getLineWithoutComment b! "  mov eax, ebx  # copy" = b! "  mov eax, ebx" := by decide
example : getLineWithoutComment b! "foo: " = b! "foo:" := by decide

/-! ### C28 -/

/-- C28: every reference names a piece of the line, and its columns are too large by the number `k` of characters that
were cut off at the end of the line. -/
theorem C28_columns (L : Locale) (hL : L.Ascii) (line : Str) (hlen : line.length < 65535) :
    ∃ k, k ≤ line.length ∧ ∀ r ∈ getUsedLabelsInLine L line, ∃ a b, line = a ++ r.name ++ b ∧
      r.startCol = a.length + 1 + k ∧ r.endCol = r.startCol + r.name.length := by
  obtain ⟨x, z, h1, h2, -⟩ := strip_eq line
  have hl := congrArg List.length h1
  simp only [List.length_append] at hl
  refine ⟨z.length, by omega, ?_⟩
  intro r hr
  unfold getUsedLabelsInLine at hr
  simp only at hr
  split at hr
  · simp at hr
  · obtain ⟨a, b, h3, h4, h5⟩ := usedLabels_cols hL _ _ (by omega) (by omega) _ 0 (by omega) r hr
    refine ⟨x ++ a, b ++ z, ?_, ?_, h5⟩
    · rw [h1, h3]; simp
    · rw [h4, h2]; simp; omega

/-- C28: if every comment character of the line is followed by a non-blank character, and the line does not end with a
blank, the columns denote the label. -/
theorem C28_columns_partial (L : Locale) (hL : L.Ascii) (line : Str) (hlen : line.length < 65535)
    (hc : ∀ a c b, line = a ++ c :: b → CommentChar c → ∃ d ∈ b.head?, ¬ Blank d) (he : ∀ c ∈ line.getLast?, ¬ Blank c)
    (r : AsmLabel) (hr : r ∈ getUsedLabelsInLine L line) :
    ∃ a b, line = a ++ r.name ++ b ∧ r.startCol - 1 = a.length ∧ r.endCol - 1 = a.length + r.name.length ∧ 1 ≤ r.startCol := by
  obtain ⟨x, z, h1, h2, h6⟩ := strip_eq line
  have hz : z = [] := by
    apply h6
    · intro a c b e hcc
      obtain ⟨d, hd, hnb⟩ := hc a c b e (comment_iff.2 hcc)
      cases b with
      | nil => simp at hd
      | cons y b =>
        simp at hd
        subst hd
        refine ⟨_, b, rfl, ?_⟩
        cases hh : isWhitespace y
        · rfl
        · exact absurd (blank_iff.2 hh) hnb
    · intro c hh
      cases hb : isWhitespace c
      · rfl
      · exact absurd (blank_iff.2 hb) (he c hh)
  subst hz
  have hl := congrArg List.length h1
  simp only [List.length_append, List.length_nil] at hl
  unfold getUsedLabelsInLine at hr
  simp only at hr
  split at hr
  · simp at hr
  · obtain ⟨a, b, h3, h4, h5⟩ := usedLabels_cols hL _ _ (by omega) (by omega) _ 0 (by omega) r hr
    simp only [List.length_nil, Nat.add_zero] at h2
    refine ⟨x ++ a, b, ?_, ?_, ?_, ?_⟩
    · rw [h1, h3]; simp
    · simp; omega
    · simp; omega
    · omega

example : getUsedLabelsInLine Locale.utf8 b! "  jmp foo" = [{ name := b! "foo", startCol := 7, endCol := 10 }] := by decide +kernel
example : (b! "  jmp foo").getLast? = some c! 'o' := rfl

/-- C28 is violated when a comment is cut off: `foo` is in columns 7 to 9, but reported in columns 11 to 13. -/
theorem C28_violation : getUsedLabelsInLine Locale.utf8 b! "  jmp foo # x" = [{ name := b! "foo", startCol := 11, endCol := 14 }] := by
  decide +kernel

/-! ### C29 -/

/-- C29: `getLabel` reports a label exactly for the lines that define it. -/
theorem C29_label (line l : Str) : getLabel line = some l ↔ DefinesLabel line l := getLabel_iff line l

/-- C29: data directives. -/
theorem C29_data (line : Str) : isDataDefn line = true ↔ StartsWithOneOf dataDirectives line := isDataDefn_iff line

/-- C29: global symbols. -/
theorem C29_global (line l : Str) : getGlobalDefinedLabel line = some l ↔ DeclaresSymbol globalDirectives line l :=
  getGlobal_iff line l

/-- C29: weak symbols (`.weakext` has precedence over `.weak`). -/
theorem C29_weak (line l : Str) : getWeakDefinedLabel line = some l ↔
    DeclaresSymbol [b! ".weakext"] line l ∨
      (DeclaresSymbol [b! ".weak"] line l ∧ ¬ ∃ l', DeclaresSymbol [b! ".weakext"] line l') := getWeak_iff line l

/-- C29: types of symbols. -/
theorem C29_type (line l : Str) : getFunctionTypeDefinedLabel line = some l ↔ FirstTypeDirective line l :=
  getFunctionType_iff line l

/-- C29: assignments to labels. -/
theorem C29_assignment (line l : Str) : getLabelAssignment line = some l ↔ AssignsLabel line l := getLabelAssignment_iff line l

/-- C29: directives. -/
theorem C29_directive (line : Str) : isDirective line = true ↔ ∃ bs r, Blanks bs ∧ line = bs ++ c! '.' :: r := isDirective_iff line

/-- C29: comment lines. -/
theorem C29_comment (line : Str) : isJustComments line = true ↔ OnlyComment line := isJustComments_iff line

example : DefinesLabel b! ".proc  main: # x" b! "main" :=
  ⟨by simp, by unfold LabelChar SymbolChar Letter Digit; decide, .inr ⟨c! '.', b! "  ", b! " # x", rfl, by simp, by unfold Blanks; decide⟩⟩
example : StartsWithOneOf dataDirectives b! "\t.4byte 1" := ⟨b! "\t", b! ".4byte", b! " 1", by unfold Blanks; decide, by decide, rfl⟩
example : getGlobalDefinedLabel b! "  .globl a.b$1+2" = some b! "a.b$1" := by decide
example : getWeakDefinedLabel b! " .weakextfoo" = some b! "foo" ∧ getWeakDefinedLabel b! " .weakext" = some b! "ext" := by decide
example : getFunctionTypeDefinedLabel b! " .type main, @function" = some b! "main" := by decide
example : getLabelAssignment b! ".L2= 5" = none ∧ getLabelAssignment b! ".L2  = 5" = some b! ".L2" := by decide
example : isJustComments b! " ;;  " = false ∧ isJustComments b! " ; x" = true := by decide

/-! ### C50 -/

/-- C50: in a UTF-8 locale the length is the number of code points (scalar values other than 0). -/
theorem C50_code_points (ns : List Nat) (h : ∀ n ∈ ns, n ≠ 0 ∧ (n < 0xD800 ∨ 0xE000 ≤ n) ∧ n < 0x110000) :
    ustrlen Locale.utf8 (ns.flatMap utf8Encode) = ns.length :=
  ustrlenAux_encode ns h _ (Nat.le_refl _)

/-- C50: it is the number of bytes exactly if all characters are ASCII. -/
theorem C50_bytes (ns : List Nat) (h : ∀ n ∈ ns, n ≠ 0 ∧ (n < 0xD800 ∨ 0xE000 ≤ n) ∧ n < 0x110000) :
    ustrlen Locale.utf8 (ns.flatMap utf8Encode) = (ns.flatMap utf8Encode).length ↔ ∀ n ∈ ns, n < 128 := by
  rw [C50_code_points ns h]
  clear h
  have len : ∀ n, (utf8Encode n).length = 1 ↔ n < 128 := by
    intro n
    unfold utf8Encode
    split
    · simp [*]
    · split
      · simp [*]
      · split <;> simp [*]
  have hle : ∀ ns : List Nat, ns.length ≤ (ns.flatMap utf8Encode).length := by
    intro ns
    induction ns with
    | nil => simp
    | cons n ns ih =>
      have := utf8Encode_length_pos n
      rw [List.flatMap_cons, List.length_append, List.length_cons]
      omega
  induction ns with
  | nil => simp
  | cons n ns ih =>
    have h1 := utf8Encode_length_pos n
    have h2 := hle ns
    rw [List.flatMap_cons, List.length_append, List.length_cons]
    simp only [List.forall_mem_cons]
    have h3 := len n
    constructor
    · intro h
      exact ⟨h3.1 (by omega), ih.1 (by omega)⟩
    · rintro ⟨h4, h5⟩
      have := h3.2 h4
      have := ih.2 h5
      omega

example : ustrlen Locale.utf8 b! "naïve €" = 7 := by decide

end AsmParser
