/-
Helper lemmas: the line utilities.
-/
import Verif.Model.TextUtils
import Verif.Spec.Text
import Verif.Spec.Json

namespace AsmParser

/-! ### expandTabs -/

/-- What the code does: pad according to the number of other characters so far. -/
def padTabs : Nat → Str → Str
  | _, [] => []
  | k, c :: cs => if c = 9 then List.replicate (8 - k % 8) 32 ++ padTabs k cs else c :: padTabs (k + 1) cs

theorem expandTabsLoop_eq (s out : Str) (extra k : Nat) (h : (out.length + extra) % 8 = k % 8) :
    expandTabsLoop s out extra = out ++ padTabs k s := by
  induction s generalizing out extra k with
  | nil => simp [expandTabsLoop, padTabs]
  | cons c s ih =>
    unfold expandTabsLoop padTabs
    by_cases hc : c = 9
    · subst hc
      simp only [BEq.rfl, ↓reduceIte]
      have e : (out.length + extra + 8) % 8 = k % 8 := by omega
      rw [e, ih _ _ k]
      · simp
      · simp; omega
    · have : (c == 9) = false := by simpa using hc
      simp only [this, hc, Bool.false_eq_true, ↓reduceIte]
      rw [ih _ _ (k + 1)]
      · simp
      · simp; omega

theorem expandTabs_eq (s : Str) : expandTabs s = padTabs 0 s := by
  unfold expandTabs; rw [expandTabsLoop_eq s [] 0 0 rfl]; simp

theorem padTabs_append (k : Nat) (a b : Str) : padTabs k (a ++ b) = padTabs k a ++ padTabs (k + nonTabs a) b := by
  induction a generalizing k with
  | nil => simp [padTabs, nonTabs]
  | cons c a ih =>
    rw [List.cons_append, padTabs, padTabs]
    by_cases hc : c = 9
    · subst hc; simp [ih, nonTabs]
    · simp only [hc, ↓reduceIte, ih, List.cons_append]
      have : k + nonTabs (c :: a) = k + 1 + nonTabs a := by simp [nonTabs, hc]; omega
      rw [this]

theorem padTabs_no_tab (k : Nat) (s : Str) : 9 ∉ padTabs k s := by
  induction s generalizing k with
  | nil => simp [padTabs]
  | cons c s ih =>
    unfold padTabs
    split
    · simp [ih]
    · rename_i h; simp [ih, Ne.symm h]

theorem padTabs_replace (k : Nat) (s : Str) :
    ∃ ns, ns.length = s.count 9 ∧ (∀ n ∈ ns, 1 ≤ n ∧ n ≤ 8) ∧ padTabs k s = replaceTabs ns s := by
  induction s generalizing k with
  | nil => exact ⟨[], rfl, by simp, by simp [padTabs, replaceTabs]⟩
  | cons c s ih =>
    by_cases hc : c = 9
    · subst hc
      obtain ⟨ns, h1, h2, h3⟩ := ih k
      refine ⟨(8 - k % 8) :: ns, by simp [h1], ?_, ?_⟩
      · intro n hn
        rcases List.mem_cons.1 hn with rfl | hn
        · omega
        · exact h2 n hn
      · simp [padTabs, replaceTabs, h3]
    · obtain ⟨ns, h1, h2, h3⟩ := ih (k + 1)
      refine ⟨ns, by simp [h1, hc], h2, ?_⟩
      cases ns with
      | nil =>
        have : ∀ t, replaceTabs [] t = t := by intro t; cases t <;> simp [replaceTabs]
        simp only [padTabs, hc, ↓reduceIte, h3, this]
      | cons n ns => simp only [padTabs, hc, ↓reduceIte, h3, replaceTabs]

theorem padTabs_eq_no_tab (k : Nat) {s : Str} (h : 9 ∉ s) : padTabs k s = s := by
  induction s generalizing k with
  | nil => rfl
  | cons c s ih =>
    simp only [List.mem_cons, not_or] at h
    unfold padTabs
    rw [if_neg (Ne.symm h.1), ih _ h.2]

theorem tabStops_no_tab (k : Nat) {s : Str} (h : 9 ∉ s) : tabStops k s = s := by
  induction s generalizing k with
  | nil => rfl
  | cons c s ih =>
    simp only [List.mem_cons, not_or] at h
    unfold tabStops
    rw [if_neg (Ne.symm h.1), ih _ h.2]

/-- The two expansions agree if all tabs but the last one are aligned. -/
theorem padTabs_tabStops (s : Str) (k col : Nat) (hk : k % 8 = col % 8)
    (h : ∀ a b, s = a ++ 9 :: b → 9 ∈ b → (k + nonTabs a) % 8 = 0) : padTabs k s = tabStops col s := by
  induction s generalizing k col with
  | nil => rfl
  | cons c s ih =>
    unfold padTabs tabStops
    by_cases hc : c = 9
    · subst hc
      simp only [↓reduceIte, hk]
      by_cases h9 : 9 ∈ s
      · have h0 := h [] s rfl h9
        simp [nonTabs] at h0
        rw [ih k (col + (8 - col % 8)) (by omega)]
        intro a b e hb
        have := h (9 :: a) b (by rw [e]; rfl) hb
        simpa [nonTabs] using this
      · rw [padTabs_eq_no_tab _ h9, tabStops_no_tab _ h9]
    · simp only [hc, ↓reduceIte]
      rw [ih (k + 1) (col + 1) (by omega)]
      intro a b e hb
      have := h (c :: a) b (by rw [e]; rfl) hb
      simp only [nonTabs, List.filter_cons, hc, ne_eq, not_false_eq_true, decide_true, ↓reduceIte, List.length_cons] at this
      simp only [nonTabs, ne_eq]
      omega

/-! ### Blanks -/

theorem blank_iff {c : Byte} : Blank c ↔ isWhitespace c = true := by
  simp [Blank, isWhitespace]

theorem blank_decide (c : Byte) : decide (Blank c) = isWhitespace c := by
  rw [Bool.eq_iff_iff, decide_eq_true_eq, blank_iff]

/-- Every run of blanks becomes a single space. -/
def squeeze : Bool → Str → Str
  | _, [] => []
  | after, c :: cs => if Blank c then (if after then squeeze true cs else 32 :: squeeze true cs) else c :: squeeze false cs

theorem squash_run (s : Str) : squashLoop .justOne s = squeeze false s ∧ squashLoop .stop s = squeeze true s := by
  induction s with
  | nil => exact ⟨rfl, rfl⟩
  | cons c s ih =>
    by_cases h : isWhitespace c = true
    · simp [squashLoop, squashStep, squeeze, h, blank_iff, ih]
    · simp [squashLoop, squashStep, squeeze, h, blank_iff, ih]

theorem squash_start_nil : squashLoop .start [] = [] := rfl
theorem squash_start_word {c : Byte} (h : ¬ Blank c) (s : Str) : squashLoop .start (c :: s) = c :: squeeze true s := by
  rw [blank_iff] at h; simp [squashLoop, squashStep, h, (squash_run s).2]
theorem squash_start_one {b c : Byte} (hb : Blank b) (h : ¬ Blank c) (s : Str) :
    squashLoop .start (b :: c :: s) = 32 :: c :: squeeze true s := by
  rw [blank_iff] at h hb; simp [squashLoop, squashStep, h, hb, (squash_run s).2]
theorem squash_start_two {b c : Byte} (hb : Blank b) (h : Blank c) (s : Str) :
    squashLoop .start (b :: c :: s) = 32 :: 32 :: squeeze true s := by
  rw [blank_iff] at h hb; simp [squashLoop, squashStep, h, hb, (squash_run s).2]
theorem squash_start_single {b : Byte} (hb : Blank b) : squashLoop .start [b] = [32] := by
  rw [blank_iff] at hb; simp [squashLoop, squashStep, hb]

theorem start_cases {P : Str → Prop} (s : Str) (hn : P []) (h1 : ∀ c s, ¬ Blank c → P (c :: s))
    (h2 : ∀ b c s, Blank b → ¬ Blank c → P (b :: c :: s)) (h3 : ∀ b c s, Blank b → Blank c → P (b :: c :: s))
    (h4 : ∀ b, Blank b → P [b]) : P s := by
  cases s with
  | nil => exact hn
  | cons b s =>
    by_cases hb : Blank b
    · cases s with
      | nil => exact h4 b hb
      | cons c s =>
        by_cases hc : Blank c
        · exact h3 b c s hb hc
        · exact h2 b c s hb hc
    · exact h1 b s hb

theorem squeeze_nonBlanks (a : Bool) (s : Str) : nonBlanks (squeeze a s) = nonBlanks s := by
  induction s generalizing a with
  | nil => rfl
  | cons c s ih =>
    unfold squeeze
    by_cases h : Blank c
    · have e : nonBlanks (c :: s) = nonBlanks s := by simp [nonBlanks, h]
      have e' : ∀ t, nonBlanks (32 :: t) = nonBlanks t := by intro t; simp [nonBlanks, Blank]
      rw [e, if_pos h]
      cases a
      · simp [e', ih]
      · simp [ih]
    · have e : ∀ t, nonBlanks (c :: t) = c :: nonBlanks t := by intro t; simp [nonBlanks, h]
      rw [if_neg h, e, e, ih]

theorem squashLoop_nonBlanks (st : HorSpaceState) (s : Str) : nonBlanks (squashLoop st s) = nonBlanks s := by
  induction s generalizing st with
  | nil => rfl
  | cons c s ih =>
    have e' : ∀ t, nonBlanks (32 :: t) = nonBlanks t := by intro t; simp [nonBlanks, Blank]
    unfold squashLoop
    by_cases h : Blank c
    · have e : nonBlanks (c :: s) = nonBlanks s := by simp [nonBlanks, h]
      have hw := blank_iff.1 h
      rw [e]
      cases st <;> simp [squashStep, hw, e', ih]
    · have e : ∀ t, nonBlanks (c :: t) = c :: nonBlanks t := by intro t; simp [nonBlanks, h]
      have hw : ¬ isWhitespace c = true := fun x => h (blank_iff.2 x)
      rw [e]
      cases st <;> simp [squashStep, hw, e, ih]

theorem squashLoop_blank (st : HorSpaceState) (s : Str) : ∀ c ∈ squashLoop st s, Blank c → c = 32 := by
  induction s generalizing st with
  | nil => simp [squashLoop]
  | cons c s ih =>
    unfold squashLoop
    intro x hx hb
    rw [List.mem_append] at hx
    rcases hx with hx | hx
    · by_cases h : isWhitespace c = true
      · cases st <;> simp [squashStep, h] at hx <;> exact hx
      · have : x = c := by cases st <;> simp [squashStep, h] at hx <;> exact hx
        subst this
        exact absurd (blank_iff.1 hb) h
    · exact ih _ x hx hb

/-- No two adjacent blanks, and none in front if `after`. -/
def NoPair : Bool → Str → Prop
  | _, [] => True
  | after, c :: cs => (Blank c → after = false) ∧ NoPair (decide (Blank c)) cs

theorem squeeze_noPair (a : Bool) (s : Str) : NoPair a (squeeze a s) := by
  induction s generalizing a with
  | nil => trivial
  | cons c s ih =>
    unfold squeeze
    by_cases h : Blank c
    · rw [if_pos h]
      cases a
      · refine ⟨fun _ => rfl, ?_⟩
        have : decide (Blank 32) = true := rfl
        rw [this]; exact ih true
      · exact ih true
    · rw [if_neg h]
      refine ⟨fun x => absurd x h, ?_⟩
      have : decide (Blank c) = false := by simpa using h
      rw [this]; exact ih false

theorem noPair_infix {a : Bool} {s u v : Str} {x y : Byte} (h : NoPair a s) (e : s = u ++ [x, y] ++ v) (hx : Blank x) :
    ¬ Blank y := by
  induction s generalizing a u with
  | nil => simp at e
  | cons c s ih =>
    cases u with
    | nil =>
      simp at e
      obtain ⟨rfl, rfl⟩ := e
      intro hy
      have := h.2.1 hy
      simp [hx] at this
    | cons d u =>
      simp at e
      exact ih h.2 (u := u) (by simpa using e.2)

theorem noPair_mono {s : Str} (h : NoPair true s) : NoPair false s := by
  cases s with
  | nil => trivial
  | cons c s => exact ⟨fun _ => rfl, h.2⟩

theorem wordsFrom_squeeze (cur : Str) (a : Bool) (s : Str) (h : a = true → cur = []) :
    wordsFrom cur (squeeze a s) = wordsFrom cur s := by
  induction s generalizing cur a with
  | nil => rfl
  | cons c s ih =>
    unfold squeeze
    by_cases hb : Blank c
    · rw [if_pos hb]
      have h32 : Blank 32 := .inl rfl
      cases a
      · simp only [Bool.false_eq_true, ↓reduceIte, wordsFrom, hb, h32]
        rw [ih [] true (fun _ => rfl)]
      · simp only [↓reduceIte, wordsFrom, hb, h rfl]
        exact ih [] true (fun _ => rfl)
    · rw [if_neg hb]
      simp only [wordsFrom, hb, ↓reduceIte]
      exact ih _ false (by simp)

theorem words_blank {c : Byte} (h : Blank c) (s : Str) : words (c :: s) = words s := by
  simp [words, wordsFrom, h]

theorem wordsFrom_ne (cur : Str) (s : Str) (h : s.all isWhitespace = true) :
    wordsFrom cur s = if cur = [] then [] else [cur] := by
  induction s generalizing cur with
  | nil => rfl
  | cons c s ih =>
    simp only [List.all_cons, Bool.and_eq_true] at h
    unfold wordsFrom
    rw [if_pos (blank_iff.2 h.1), ih _ h.2]
    simp

theorem wordsFrom_cons {c : Byte} (hc : ¬ Blank c) (cur s : Str) : wordsFrom cur (c :: s) = wordsFrom (cur ++ [c]) s := by
  simp [wordsFrom, hc]

/-! ### Comments -/

theorem comment_iff {c : Byte} : CommentChar c ↔ isCommentChar c = true := by
  simp [CommentChar, isCommentChar]

/-- The index `lwcLoop` returns never lies behind the first comment character. -/
theorem lwcLoop_bound (s : Str) (it lastit : Nat) (sp st : Bool) (hl : sp = true → lastit ≤ it) (u v : Str) (c : Byte)
    (e : s = u ++ c :: v) (hc : isCommentChar c = true) : lwcLoop s it sp st lastit ≤ it + u.length := by
  induction s generalizing it lastit sp st u with
  | nil => simp at e
  | cons d s ih =>
    unfold lwcLoop
    cases u with
    | nil =>
      simp at e
      obtain ⟨rfl, rfl⟩ := e
      simp only [hc, ↓reduceIte, List.length_nil, Nat.add_zero]
      split
      · exact hl (by assumption)
      · exact Nat.le_refl _
    | cons x u =>
      simp only [List.cons_append, List.cons.injEq] at e
      obtain ⟨rfl, e⟩ := e
      have hlen : it + (d :: u).length = it + 1 + u.length := by simp; omega
      rw [hlen]
      split
      · split
        · have := hl (by assumption); omega
        · omega
      · split
        · exact ih (it + 1) lastit _ st (fun h => by have := hl (by assumption); omega) u e
        · split
          · split
            · exact ih (it + 1) lastit sp st (fun h => by have := hl h; omega) u e
            · exact ih (it + 1) it true st (fun _ => by omega) u e
          · exact ih (it + 1) lastit sp false (fun h => by have := hl h; omega) u e

/-- Up to a comment character: the trailing blanks are cut off, unless there are only blanks. -/
theorem lwcLoop_comment (s v : Str) (c : Byte) (hc : isCommentChar c = true) (hs : ∀ x ∈ s, isCommentChar x = false)
    (pre : Str) (sp st : Bool) (lastit : Nat)
    (hst : st = true → pre.all isWhitespace = true ∧ sp = false)
    (hns : st = false → ¬ pre.all isWhitespace = true)
    (hsp : sp = true → lastit = (trimRight pre).length)
    (hnsp : sp = false → st = false → trimRight pre = pre) :
    lwcLoop (s ++ c :: v) pre.length sp st lastit =
      if (pre ++ s).all isWhitespace then (pre ++ s).length else (trimRight (pre ++ s)).length := by
  have htr : ∀ (l : Str) (x : Byte), isWhitespace x = true → trimRight (l ++ [x]) = trimRight l := by
    intro l x hx
    simp [trimRight, blank_iff.2 hx]
  have htr' : ∀ (l : Str) (x : Byte), isWhitespace x = false → trimRight (l ++ [x]) = l ++ [x] := by
    intro l x hx
    have : ¬ Blank x := fun h => by rw [blank_iff, hx] at h; cases h
    simp [trimRight, this]
  induction s generalizing pre sp st lastit with
  | nil =>
    simp only [List.nil_append, List.append_nil]
    unfold lwcLoop
    simp only [hc, ↓reduceIte]
    cases sp with
    | true =>
      cases st with
      | true => exact absurd (hst rfl).2 (by simp)
      | false => simp only [↓reduceIte, hns rfl, hsp rfl, Bool.false_eq_true]
    | false =>
      cases st with
      | true => simp only [Bool.false_eq_true, ↓reduceIte, (hst rfl).1]
      | false => simp only [Bool.false_eq_true, ↓reduceIte, hns rfl, hnsp rfl rfl]
  | cons d s ih =>
    have hd : isCommentChar d = false := hs d (by simp)
    have hs' : ∀ x ∈ s, isCommentChar x = false := fun x hx => hs x (by simp [hx])
    have hassoc : pre ++ d :: s = (pre ++ [d]) ++ s := by simp
    have hlen : pre.length + 1 = (pre ++ [d]).length := by simp
    rw [List.cons_append]
    unfold lwcLoop
    simp only [hd, Bool.false_eq_true, ↓reduceIte]
    rw [hassoc, hlen]
    cases hw : isWhitespace d with
    | true =>
      cases sp with
      | true =>
        simp only [↓reduceIte]
        cases st with
        | true => exact absurd (hst rfl).2 (by simp)
        | false =>
          exact ih hs' (pre ++ [d]) true false lastit (by simp) (fun _ => by simpa [hw] using hns rfl)
            (fun _ => by rw [htr _ _ hw]; exact hsp rfl) (by simp)
      | false =>
        simp only [Bool.false_eq_true, ↓reduceIte]
        cases st with
        | true =>
          simp only [↓reduceIte]
          exact ih hs' (pre ++ [d]) false true lastit (fun _ => ⟨by simpa [hw] using (hst rfl).1, rfl⟩) (by simp) (by simp) (by simp)
        | false =>
          simp only [Bool.false_eq_true, ↓reduceIte]
          exact ih hs' (pre ++ [d]) true false _ (by simp) (fun _ => by simpa [hw] using hns rfl)
            (fun _ => by rw [htr _ _ hw, hnsp rfl rfl]) (by simp)
    | false =>
      cases sp with
      | true =>
        simp only [↓reduceIte]
        cases st with
        | true => exact absurd (hst rfl).2 (by simp)
        | false =>
          exact ih hs' (pre ++ [d]) false false _ (by simp) (fun _ => by simp [hw]) (by simp)
            (fun _ _ => htr' _ _ hw)
      | false =>
        simp only [Bool.false_eq_true, ↓reduceIte]
        exact ih hs' (pre ++ [d]) false false _ (by simp) (fun _ => by simp [hw]) (by simp)
            (fun _ _ => htr' _ _ hw)

theorem lwcLoop_cons (c : Byte) (cs : Str) (it l : Nat) (sp st : Bool) : lwcLoop (c :: cs) it sp st l =
    if isCommentChar c then (if sp then l else it)
    else if sp then lwcLoop cs (it + 1) (isWhitespace c) st l
    else if isWhitespace c then
      if st then lwcLoop cs (it + 1) sp st l else lwcLoop cs (it + 1) true st it
    else lwcLoop cs (it + 1) sp false l := rfl

theorem lwcLoop_code (a y : Str) (it l : Nat) (sp st : Bool) (h : sp = true → st = false) (hs : ∀ x ∈ a, isCommentChar x = false)
    (hne : a ≠ []) (hl : ∀ x, a.getLast? = some x → isWhitespace x = false) :
    ∃ l', lwcLoop (a ++ y) it sp st l = lwcLoop y (it + a.length) false false l' := by
  induction a generalizing it l sp st with
  | nil => exact absurd rfl hne
  | cons d a ih =>
    have hd := hs d (by simp)
    rw [List.cons_append, lwcLoop_cons]
    simp only [hd, Bool.false_eq_true, ↓reduceIte]
    by_cases ha : a = []
    · subst ha
      have hw := hl d rfl
      simp only [hw, Bool.false_eq_true, ↓reduceIte, List.nil_append, List.length_cons, List.length_nil, Nat.zero_add]
      cases sp
      · exact ⟨l, rfl⟩
      · rw [h rfl]; exact ⟨l, rfl⟩
    · have hl' : ∀ x, a.getLast? = some x → isWhitespace x = false := by
        intro x hx
        exact hl x (by rw [List.getLast?_cons, hx]; rfl)
      have e : it + (d :: a).length = it + 1 + a.length := by simp; omega
      rw [e]
      have hs' : ∀ x ∈ a, isCommentChar x = false := fun x hx => hs x (by simp [hx])
      split
      · exact ih _ _ _ _ (fun _ => h (by assumption)) hs' ha hl'
      · split
        · split
          · exact ih _ _ _ _ h hs' ha hl'
          · exact ih _ _ _ _ (fun _ => by simp_all) hs' ha hl'
        · exact ih _ _ _ _ (fun _ => rfl) hs' ha hl'

theorem blank_not_comment {x : Byte} (h : isWhitespace x = true) : isCommentChar x = false := by
  simp only [isWhitespace, Bool.or_eq_true, beq_iff_eq] at h
  rcases h with rfl | rfl <;> rfl

theorem lwcLoop_blanks (bs y : Str) (it l : Nat) (hb : ∀ x ∈ bs, isWhitespace x = true) (hne : bs ≠ []) :
    lwcLoop (bs ++ y) it false false l = lwcLoop y (it + bs.length) true false it := by
  have run : ∀ (bs y : Str) (it l : Nat), (∀ x ∈ bs, isWhitespace x = true) →
      lwcLoop (bs ++ y) it true false l = lwcLoop y (it + bs.length) true false l := by
    intro bs y it l hb
    induction bs generalizing it with
    | nil => rfl
    | cons b bs ih =>
      have h1 := hb b (by simp)
      rw [List.cons_append]
      rw [lwcLoop_cons]
      simp only [blank_not_comment h1, h1, Bool.false_eq_true, ↓reduceIte]
      rw [ih _ (fun x hx => hb x (by simp [hx]))]
      have e : it + (b :: bs).length = it + 1 + bs.length := by simp; omega
      rw [e]
  cases bs with
  | nil => exact absurd rfl hne
  | cons b bs =>
    have h1 := hb b (by simp)
    rw [List.cons_append]
    rw [lwcLoop_cons]
    simp only [blank_not_comment h1, h1, Bool.false_eq_true, ↓reduceIte]
    rw [run _ _ _ _ (fun x hx => hb x (by simp [hx]))]
    have e : it + (b :: bs).length = it + 1 + bs.length := by simp; omega
    rw [e]

theorem lwcLoop_word (w : Str) (it l : Nat) (sp st : Bool) (hw : ∀ x ∈ w, isWhitespace x = false)
    (hs : ∀ x ∈ w, isCommentChar x = false) : lwcLoop w it sp st l = l := by
  induction w generalizing it sp st with
  | nil => rfl
  | cons c w ih =>
    unfold lwcLoop
    simp only [hs c (by simp), hw c (by simp), Bool.false_eq_true, ↓reduceIte]
    have h1 : ∀ x ∈ w, isWhitespace x = false := fun x hx => hw x (by simp [hx])
    have h2 : ∀ x ∈ w, isCommentChar x = false := fun x hx => hs x (by simp [hx])
    split <;> exact ih _ _ _ h1 h2

theorem lwcLoop_indent (bs y : Str) (it l : Nat) (hb : ∀ x ∈ bs, isWhitespace x = true) :
    lwcLoop (bs ++ y) it false true l = lwcLoop y (it + bs.length) false true l := by
  induction bs generalizing it with
  | nil => rfl
  | cons b bs ih =>
    have h1 := hb b (by simp)
    rw [List.cons_append]
    rw [lwcLoop_cons]
    simp only [blank_not_comment h1, h1, Bool.false_eq_true, ↓reduceIte]
    rw [ih _ (fun x hx => hb x (by simp [hx]))]
    have e : it + (b :: bs).length = it + 1 + bs.length := by simp; omega
    rw [e]

end AsmParser
