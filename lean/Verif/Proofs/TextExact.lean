/-
Helper lemmas: exact results of reading in text mode.
-/
import Verif.Proofs.TextInv

namespace AsmParser

theorem findQuotes_nil : (Regexes.findQuotes.search []).isSome = false := by decide +kernel

attribute [local irreducible] Re.search Re.fullMatch

/-! ### Collapsing empty lines -/

theorem collapseFrom_append (b : Bool) (ls : List Str) (l : Str) : collapseFrom b (ls ++ [l]) =
    collapseFrom b ls ++ if l = [] ∧ (match (collapseFrom b ls).getLast? with | none => b | some x => decide (x = [])) = true
      then [] else [l] := by
  induction ls generalizing b with
  | nil =>
    rw [List.nil_append]
    unfold collapseFrom
    by_cases h : l = [] <;> cases b <;> simp [h, collapseFrom]
  | cons a ls ih =>
    rw [List.cons_append]
    unfold collapseFrom
    have key : ∀ (x : Str) (c : Bool), c = decide (x = []) → x :: collapseFrom c (ls ++ [l]) = (x :: collapseFrom c ls) ++
        if l = [] ∧ (match (x :: collapseFrom c ls).getLast? with | none => b | some x => decide (x = [])) = true then [] else [l] := by
      intro x c hc
      rw [ih, List.cons_append]
      congr 2
      cases hls : collapseFrom c ls with
      | nil => simp [hc]
      | cons y ys =>
        rw [List.getLast?_cons_cons]
        cases hg : (y :: ys).getLast? with
        | none => simp at hg
        | some z => rfl
    by_cases ha : a = []
    · subst ha
      rw [if_pos rfl, if_pos rfl]
      cases b with
      | true => exact ih true
      | false => exact key [] true rfl
    · rw [if_neg ha, if_neg ha]
      exact key a false (by simp [ha])

/-! ### Reading without filters -/

/-- The line does not start inline assembly. -/
def NotAsm (line : Str) : Prop := ∀ bs r, Blanks bs → line ≠ bs ++ b! "#APP" ++ r ∧ line ≠ bs ++ b! "# Begin ASM" ++ r

theorem nesting_le {n : Int} {raw : Str} (h : NotAsm raw) (hn : n ≤ 0) : nesting n raw ≤ 0 := by
  unfold nesting
  split
  · rename_i h'
    rw [Bool.or_eq_true, startAppBlock_iff, startAsmNesting_iff] at h'
    rcases h' with ⟨bs, r, hb, e⟩ | ⟨bs, r, hb, e⟩
    · exact absurd e (h bs r hb).1
    · exact absurd e (h bs r hb).2
  · split <;> omega

theorem lineText_plain {f : Filter} {n : Int} {raw : Str} (h : n ≤ 0) : lineText f n raw = cleaned f raw := by
  have e : lineText f n raw = cleaned f (if n > 0 then fixLabelIndentation raw else raw) := rfl
  rw [e, if_neg (by omega)]

/-- What is expected of the input lines. -/
structure PlainLine (line : Str) : Prop where
  blank : Blanks line → line = []
  asm : NotAsm line

structure ExactLines (f : Filter) (done : List Str) (p : TParser) : Prop where
  text : p.st.text = []
  asm : p.st.inCustomAssembly ≤ 0
  lines : p.lines.map TLine.text = collapse (done.map (cleaned f))

theorem cleaned_nil (f : Filter) : cleaned f [] = [] := by
  unfold cleaned
  split
  · have e : expandTabs [] = [] := rfl
    rw [e]
    unfold squashHorizontalWhitespaceWithQuotes squashWithQuotesAux
    cases h : Regexes.findQuotes.search [] with
    | none => rfl
    | some m =>
      exfalso
      have := findQuotes_nil
      rw [h] at this
      exact absurd this (by simp)
  · rfl

theorem eol_blank (L : Locale) (p : TParser) (h1 : p.filter.commentOnly = false) (h2 : isEmptyOrJustWhitespace p.st.text = true) :
    p.eol L = p.start.maybeAddBlank (p.nextId + 1) := by
  unfold TParser.eol
  simp only
  rw [if_neg (by simp [h1]), if_pos h2]
  rfl

theorem exact_step (L : Locale) (f : Filter) (hk : KeepsAll f) (done : List Str) (p : TParser) (l : Str) (hf : p.filter = f)
    (hl : PlainLine l) (h : ExactLines f done p) (hs : EolStep L (p.addText l) ((p.addText l).eol L)) :
    ExactLines f (done ++ [l]) ((p.addText l).eol L) := by
  have ht : (p.addText l).st.text = l := by show p.st.text ++ l = l; rw [h.text]; rfl
  have hlen : ((p.addText l).lines.map TLine.text) = collapse (done.map (cleaned f)) := h.lines
  refine ⟨?_, ?_, ?_⟩
  · cases hb : isEmptyOrJustWhitespace (p.addText l).st.text with
    | false => exact hs.text hb
    | true =>
      rw [ht] at hb
      have := hl.blank (blanks_white.1 hb)
      rcases hs.carry with e | e
      · exact e
      · rw [e, ht, this]
  · rcases hs.asm with e | e
    · rw [e]; exact h.asm
    · rw [e, ht]; exact nesting_le hl.asm h.asm
  · have hmap : collapse ((done ++ [l]).map (cleaned f)) = collapse (done.map (cleaned f)) ++
        if cleaned f l = [] ∧ (match (collapse (done.map (cleaned f))).getLast? with
          | none => true | some x => decide (x = [])) = true then [] else [cleaned f l] := by
      rw [List.map_append]; exact collapseFrom_append true _ _
    have hblank : isEmptyOrJustWhitespace (p.addText l).st.text = true → l = [] := by
      intro hb; rw [ht] at hb; exact hl.blank (blanks_white.1 hb)
    rw [hmap, ← hlen]
    rcases hs.lines with ⟨hraw, am, -, why⟩ | ⟨l', last, ne, eq, -, raw⟩ | ⟨ls, am, ln, eq, kept⟩
    · cases why with
      | library h => rw [show (p.addText l).filter = f from hf, hk.2.2] at h; exact absurd h (by simp)
      | comment h => rw [show (p.addText l).filter = f from hf, hk.1] at h; exact absurd h (by simp)
      | proc h => rw [show (p.addText l).filter = f from hf, hk.2.1] at h; exact absurd h (by simp)
      | directive h => rw [show (p.addText l).filter = f from hf, hk.2.1] at h; exact absurd h (by simp)
      | blank hb =>
        have hl0 := hblank hb
        -- a blank line that is dropped: nothing before it, or a blank line
        have heq : (p.addText l).eol L = (p.addText l).start.maybeAddBlank ((p.addText l).nextId + 1) := by
          refine eol_blank L _ ?_ hb
          rw [show (p.addText l).filter = f from hf, hk.1]
        have hno : ((p.addText l).eol L).lines = (p.addText l).lines := hraw hb
        rw [hno]
        subst hl0
        rw [cleaned_nil]
        rw [if_pos, List.append_nil]
        refine ⟨rfl, ?_⟩
        rw [List.getLast?_map]
        cases hg : (p.addText []).lines.getLast? with
        | none => rfl
        | some x =>
          show decide (x.text = []) = true
          rw [decide_eq_true_eq]
          apply Classical.byContradiction
          intro hx
          rw [heq] at hno
          unfold TParser.maybeAddBlank at hno
          rw [show (p.addText []).start.lines = (p.addText []).lines from rfl, hg] at hno
          simp only at hno
          rw [if_neg (by simpa using hx)] at hno
          have := congrArg List.length hno
          simp at this
    · have hl0 := hblank raw
      subst hl0
      rw [eq, List.map_append, cleaned_nil, if_neg]
      · rfl
      · rw [List.getLast?_map, last]
        simp [ne]
    · have hnb : ¬ Blanks l := by
        have := not_blanks_white.1 kept.raw
        rwa [ht] at this
      rw [if_neg (fun h => cleaned_ne hnb h.1), eq, List.map_append, ← amended_text am]
      congr 1
      show [ln.text] = _
      rw [kept.text]
      show [lineText _ _ _] = _
      rw [lineText_plain, ht, show (p.addText l).filter = f from hf]
      show nesting (p.addText l).st.inCustomAssembly (p.addText l).st.text ≤ 0
      rw [ht]
      exact nesting_le hl.asm h.asm

theorem exactLines (L : Locale) (f : Filter) (hk : KeepsAll f) (s : Str) (hs : ∀ l ∈ inputLines s, PlainLine l) :
    ((TParser.init f).readStream L s).lines.map TLine.text = collapse ((inputLines s).map (cleaned f)) := by
  obtain ⟨e, he, h, -, -⟩ := readStream_lines L f (fun done p => (∀ l ∈ done, PlainLine l) → ExactLines f done p)
    (fun _ => ⟨rfl, Int.le_refl _, rfl⟩)
    (fun done p l _ hf _ h hst hd => exact_step L f hk done p l hf (hd l (by simp))
      (h fun x hx => hd x (List.mem_append_left _ hx)) hst) s
  rcases he with rfl | ⟨-, q, hq, h'⟩
  · rw [List.append_nil] at h
    exact (h hs).lines
  · exact absurd (h' hs).text hq

/-- With any filter: a subsequence. -/
structure SubLines (f : Filter) (done : List Str) (p : TParser) : Prop where
  text : p.st.text = []
  asm : p.st.inCustomAssembly ≤ 0
  lines : ((p.lines.map TLine.text).filter (· ≠ [])).Sublist (done.map (cleaned f))

theorem sub_step (L : Locale) (f : Filter) (done : List Str) (p : TParser) (l : Str) (hf : p.filter = f)
    (hl : PlainLine l) (h : SubLines f done p) (hs : EolStep L (p.addText l) ((p.addText l).eol L)) :
    SubLines f (done ++ [l]) ((p.addText l).eol L) := by
  have ht : (p.addText l).st.text = l := by show p.st.text ++ l = l; rw [h.text]; rfl
  refine ⟨?_, ?_, ?_⟩
  · cases hb : isEmptyOrJustWhitespace (p.addText l).st.text with
    | false => exact hs.text hb
    | true =>
      rw [ht] at hb
      have := hl.blank (blanks_white.1 hb)
      rcases hs.carry with e | e
      · exact e
      · rw [e, ht, this]
  · rcases hs.asm with e | e
    · rw [e]; exact h.asm
    · rw [e, ht]; exact nesting_le hl.asm h.asm
  · rw [List.map_append]
    rcases hs.lines with ⟨-, am, -, -⟩ | ⟨l', -, -, eq, -, -⟩ | ⟨ls, am, ln, eq, kept⟩
    · rw [← amended_text am]
      exact h.lines.trans (List.sublist_append_left _ _)
    · rw [eq, List.map_append, List.filter_append]
      exact h.lines.append (List.nil_sublist _)
    · rw [eq, List.map_append, List.filter_append, ← amended_text am]
      refine h.lines.append (List.filter_sublist.trans ?_)
      show List.Sublist [ln.text] _
      have e : ln.text = cleaned f l := by
        rw [kept.text]
        show lineText _ _ _ = _
        rw [lineText_plain, ht, show (p.addText l).filter = f from hf]
        show nesting (p.addText l).st.inCustomAssembly (p.addText l).st.text ≤ 0
        rw [ht]
        exact nesting_le hl.asm h.asm
      rw [e]
      exact .refl _

theorem subLines (L : Locale) (f : Filter) (s : Str) (hs : ∀ l ∈ inputLines s, PlainLine l) :
    ((((TParser.init f).readStream L s).lines.map TLine.text).filter (· ≠ [])).Sublist ((inputLines s).map (cleaned f)) := by
  obtain ⟨e, he, h, -, -⟩ := readStream_lines L f (fun done p => (∀ l ∈ done, PlainLine l) → SubLines f done p)
    (fun _ => ⟨rfl, Int.le_refl _, .slnil⟩)
    (fun done p l _ hf _ h hst hd => sub_step L f done p l hf (hd l (by simp))
      (h fun x hx => hd x (List.mem_append_left _ hx)) hst) s
  rcases he with rfl | ⟨-, q, hq, h'⟩
  · rw [List.append_nil] at h
    exact (h hs).lines
  · exact absurd (h' hs).text hq

/-! ### The final newline -/

theorem foldl_basic (L : Locale) (f : Filter) (s : Str) : Basic (s.foldl (TParser.feed L) (TParser.init f)) := by
  have : ∀ (s : Str) (p : TParser), Basic p → Basic (s.foldl (TParser.feed L) p) := by
    intro s
    induction s with
    | nil => exact fun p h => h
    | cons c s ih =>
      intro p h
      rw [List.foldl_cons]
      apply ih
      by_cases hc : c = 10
      · subst hc; rw [feed_lf]; exact (eol_step L p h).basic
      · rw [feed_addText L p c hc]; exact basic_addText h _
  exact this s _ ⟨rfl, rfl, fun _ => ⟨rfl, rfl⟩⟩

theorem readStream_final (L : Locale) (f : Filter) (s l : Str) (hl : 10 ∉ l) (hb : nonBlanks l ≠ []) :
    (TParser.init f).readStream L (s ++ l ++ [10]) = (TParser.init f).readStream L (s ++ l) := by
  rw [readStream_eq, readStream_eq]
  show TParser.flush L ((s ++ l ++ [10]).foldl (TParser.feed L) (TParser.init f)) =
    TParser.flush L ((s ++ l).foldl (TParser.feed L) (TParser.init f))
  have hbas := foldl_basic L f (s ++ l)
  have htx : isEmptyOrJustWhitespace ((s ++ l).foldl (TParser.feed L) (TParser.init f)).st.text = false := by
    rw [List.foldl_append, foldl_addText L l hl, not_blanks_white]
    intro h
    exact hb (nonBlanks_blanks.2 fun c hc => h c (List.mem_append_right _ hc))
  rw [List.foldl_append]
  generalize (s ++ l).foldl (TParser.feed L) (TParser.init f) = q at *
  rw [List.foldl_cons, List.foldl_nil, feed_lf, flush_nil L _ ((eol_step L q hbas).text htx), flush_ne]
  intro e
  rw [e] at htx
  exact absurd htx (by decide)

/-! ### Indices -/

theorem markLoop_ub {o : Order} {n : Nat} (names : List Str) (p : TParser) (v : List Str) {p' : TParser} {v' : List Str}
    (h : TParser.markLoop o n names p v = some (p', v'))
    (hi : ∀ a ∈ names, (p.labelsDefined.lookup a).getD 0 - 1 < p.lines.length) : p'.ub = p.ub := by
  induction names generalizing p v with
  | nil =>
    simp only [TParser.markLoop, Option.some.injEq, Prod.mk.injEq] at h
    rw [h.1]
  | cons a names ih =>
    unfold TParser.markLoop at h
    simp only at h
    have ha := hi a (by simp)
    split at h
    · rename_i hn
      rw [List.getElem?_eq_none_iff] at hn
      omega
    · split at h
      · exact absurd h (by simp)
      · have := ih _ _ h (fun b hb => by simpa using hi b (List.mem_cons_of_mem _ hb))
        exact this

theorem lookup_mem {m : List (Str × Nat)} {a : Str} (h : a ∈ m.map (·.1)) : ∃ n, m.lookup a = some n ∧ (a, n) ∈ m := by
  induction m with
  | nil => simp at h
  | cons x m ih =>
    obtain ⟨k, v⟩ := x
    rw [List.lookup_cons]
    by_cases hk : a = k
    · subst hk; exact ⟨v, by simp, by simp⟩
    · have : (a == k) = false := by simpa using hk
      rw [this]
      simp only [List.map_cons, List.mem_cons] at h
      obtain ⟨n, h1, h2⟩ := ih (h.resolve_left hk)
      exact ⟨n, h1, List.mem_cons_of_mem _ h2⟩

theorem lookup_some_mem {m : List (Str × Nat)} {a : Str} {n : Nat} (h : m.lookup a = some n) : (a, n) ∈ m := by
  induction m with
  | nil => simp at h
  | cons x m ih =>
    obtain ⟨k, v⟩ := x
    rw [List.lookup_cons] at h
    by_cases hk : a = k
    · subst hk
      have : v = n := by simpa using h
      simp [this]
    · have e : (a == k) = false := by simpa using hk
      rw [e] at h
      exact List.mem_cons_of_mem _ (ih h)

/-- The indices used after reading are those of label lines. -/
theorem fromStream_ub {L : Locale} {o : Order} {n : Nat} {f : Filter} {s : Str} {v v' : List Str} {p : TParser}
    (h : (TParser.init f).fromStream L o n s v = some (p, v')) : p.ub = ((TParser.init f).readStream L s).ub := by
  unfold TParser.fromStream at h
  split at h
  · exact absurd h (by simp)
  · rename_i q v2 hm
    simp only [Option.some.injEq, Prod.mk.injEq] at h
    rw [← h.1]
    have : q.ub = ((TParser.init f).readStream L s).filterNonLabels.ub := by
      refine markLoop_ub _ _ _ hm fun a ha => ?_
      obtain ⟨e, -, ht⟩ := textInv L f s
      have ha' : a ∈ ((TParser.init f).readStream L s).labelsDefined.map (·.1) := (o.perm _ _).mem_iff.1 ha
      obtain ⟨k, h1, h2⟩ := lookup_mem ha'
      obtain ⟨h3, l, h4, -⟩ := ht.table.sound _ h2
      show (((TParser.init f).readStream L s).labelsDefined.lookup a).getD 0 - 1 < ((TParser.init f).readStream L s).lines.length
      rw [h1]
      exact (List.getElem?_eq_some_iff.1 h4).1
    exact this

/-! ### What is removed without `unused_labels` -/

theorem sublist_eq_of_filter {α : Type} {P : α → Bool} {a b : List α} (h : a.Sublist b)
    (hl : (a.filter P).length = (b.filter P).length) : a.filter P = b.filter P :=
  (h.filter P).eq_of_length hl

theorem Outcome.sub {L : Locale} {f : Filter} {s : Str} {p : TParser} (h : Outcome L f s p) :
    ∃ sub, List.Sublist sub ((TParser.init f).readStream L s).lines ∧ p.lines.map TLine.core = sub.map TLine.core ∧
      (f.unusedLabels = false → sub.filter (fun l => !l.looseData) =
          ((TParser.init f).readStream L s).lines.filter (fun l => !l.looseData) ∧
        ((f.compatmode && f.directives) = false → sub = ((TParser.init f).readStream L s).lines)) := by
  obtain ⟨us, ls, lines, fl, ub, rfl, h1, sub, h2, h3, h4⟩ := h
  simp only
  generalize ((TParser.init f).readStream L s) = q at *
  have h5 : (sub.map TLine.noUse).Sublist (q.lines.map TLine.noUse) := by rw [← h1]; exact h2.map _
  rw [List.sublist_map_iff] at h5
  obtain ⟨sub', h6, h7⟩ := h5
  have hmapf : ∀ l : List TLine, (l.filter fun l => !l.looseData).length =
      ((l.map TLine.noUse).filter fun l => !l.looseData).length := by
    intro l
    rw [List.filter_map, List.length_map]
    rfl
  refine ⟨sub', h6, ?_, fun hu => ⟨?_, fun hd => ?_⟩⟩
  · rw [h3, List.map_map, show sub.map (TLine.core ∘ q.finishKept) = sub.map TLine.core from
      List.map_congr_left fun l _ => finishKept_core _ l]
    have := congrArg (List.map TLine.core) h7
    rw [List.map_map, List.map_map] at this
    exact this
  · refine sublist_eq_of_filter h6 ?_
    rw [hmapf, hmapf q.lines, ← h7, ← h1, ← hmapf, ← hmapf, (h4 hu).1]
  · refine h6.eq_of_length ?_
    have := congrArg List.length h7
    rw [List.length_map, List.length_map] at this
    rw [← this, (h4 hu).2 hd]
    have := congrArg List.length h1
    simpa using this

end AsmParser
