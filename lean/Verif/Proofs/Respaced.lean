/-
Lemmas for C97: whole inputs, and lines whose blanks can be squashed.
-/
import Verif.Proofs.Alike

namespace AsmParser

attribute [local irreducible] Re.search Re.fullMatch

/-! ### Marking and removing -/

theorem Mark.set_worded (m : Mark) (l : TLine) : (m.set l).worded = m.set l.worded := by cases m <;> rfl

theorem markLoop_worded (o : Order) (n : Nat) (names : List Str) : ∀ {p q : TParser} (v : List Str), p.worded = q.worded →
    (p.markLoop o n names v).map (fun r => (r.1.worded, r.2)) = (q.markLoop o n names v).map (fun r => (r.1.worded, r.2)) := by
  induction names with
  | nil =>
    intro p q v h
    simp [TParser.markLoop, h]
  | cons a names ih =>
    intro p q v h
    have hd : p.labelsDefined = q.labelsDefined := (congrArg TParser.labelsDefined h :)
    have hu : p.usage = q.usage := (congrArg TParser.usage h :)
    have hl : p.lines.map TLine.worded = q.lines.map TLine.worded := (congrArg TParser.lines h :)
    rw [TParser.markLoop, TParser.markLoop]
    simp only [hd, hu]
    generalize (q.labelsDefined.lookup a).getD 0 - 1 = i
    have hi : p.lines[i]?.map TLine.worded = q.lines[i]?.map TLine.worded := by rw [← List.getElem?_map, ← List.getElem?_map, hl]
    cases hp : p.lines[i]? with
    | none =>
      rw [hp] at hi
      cases hq : q.lines[i]? with
      | none =>
        refine ih (p := { p with labelsDefined := q.labelsDefined, usage := q.usage, ub := true }) (q := { q with ub := true }) v ?_
        exact TParser.worded_ext (congrArg TParser.filter h :) (congrArg TParser.st h :) (congrArg TParser.files h :) hl rfl rfl (congrArg TParser.reproducible h :)
          (congrArg TParser.totalLines h :) (congrArg TParser.nextId h :)
      | some y => rw [hq] at hi; cases hi
    | some x =>
      rw [hp] at hi
      cases hq : q.lines[i]? with
      | none => rw [hq] at hi; cases hi
      | some y =>
        rw [hq] at hi
        simp only [Option.map_some, Option.some.injEq] at hi
        have hlab : x.label = y.label := (congrArg TLine.label hi :)
        simp only [markLine_verdict, hlab]
        cases verdict q.usage o n y.label v with
        | none => rfl
        | some r =>
          obtain ⟨m, w⟩ := r
          simp only [Option.map_some]
          refine ih w ?_
          refine TParser.worded_ext (congrArg TParser.filter h :) (congrArg TParser.st h :) (congrArg TParser.files h :) ?_ rfl rfl (congrArg TParser.reproducible h :)
            (congrArg TParser.totalLines h :) (congrArg TParser.nextId h :)
          rw [List.map_set, List.map_set, hl, m.set_worded, m.set_worded, hi]

theorem finishKept_worded {p q : TParser} (h : p.worded = q.worded) {x y : TLine} (hl : x.worded = y.worded) :
    (p.finishKept x).worded = (q.finishKept y).worded := by
  have e : ∀ (p : TParser) (l : TLine), (p.finishKept l).worded = (p.worded.finishKept l.worded).worded := by
    intro p l
    unfold TParser.finishKept
    have e1 : l.worded.source = l.source := rfl
    have e2 : p.worded.files = p.files := rfl
    have e3 : (l.worded.labels.filter fun r => (p.worded.labelsDefined.lookup r.name).isSome) =
        (l.labels.filter fun r => (p.labelsDefined.lookup r.name).isSome).map fun r => ({ name := r.name } : AsmLabel) := by
      unfold TLine.worded
      simp only
      rw [List.filter_map]
      rfl
    simp only [e1, e2, e3]
    generalize (l.labels.filter fun r => (p.labelsDefined.lookup r.name).isSome) = ls
    have key : ∀ (s : TSource), TLine.worded { l with labels := ls, source := s } =
        TLine.worded { l.worded with labels := ls.map fun r => ({ name := r.name } : AsmLabel), source := s } := by
      intro s
      simp [TLine.worded, oneBlank_idem]
    by_cases hi : l.source.fileIdx = 0
    · simp only [hi, ne_eq, not_true_eq_false, if_false]
      exact key l.source
    · simp only [hi, ne_eq, not_false_eq_true, if_true]
      cases p.files.lookup l.source.fileIdx <;> exact key _
  rw [e, e q, h, hl]

theorem removeLoop_worded {p q : TParser} (h : p.worded = q.worded) (ls : List TLine) : ∀ (ls' : List TLine) (r : RemState),
    ls.map TLine.worded = ls'.map TLine.worded → (p.removeLoop r ls).1.map TLine.worded = (q.removeLoop r ls').1.map TLine.worded := by
  have hu : p.usage = q.usage := (congrArg TParser.usage h :)
  induction ls with
  | nil =>
    intro ls' r hl
    cases ls' with
    | nil => rfl
    | cons _ _ => cases hl
  | cons x ls ih =>
    intro ls' r hl
    cases ls' with
    | nil => cases hl
    | cons y ls' =>
      rw [List.map_cons, List.map_cons, List.cons.injEq] at hl
      have k1 : ∀ r, remLabel p.filter p.usage r x = remLabel q.filter q.usage r y := by
        intro r
        have : ∀ (p : TParser) l, remLabel p.filter p.usage r l = remLabel p.worded.filter p.worded.usage r l.worded := fun _ _ => rfl
        rw [this, this q y, hl.1, h]
      have k2 : ∀ r b, remDrop p.filter r b x = remDrop q.filter r b y := by
        intro r b
        have : ∀ (p : TParser) l, remDrop p.filter r b l = remDrop p.worded.filter r b l.worded := fun _ _ => rfl
        rw [this, this q y, hl.1, h]
      rw [TParser.removeLoop, TParser.removeLoop]
      simp only [k1, k2]
      have := ih ls' (remLabel q.filter q.usage r y).1 hl.2
      split
      · exact this
      · rw [List.map_cons, List.map_cons, this, finishKept_worded h hl.1]

theorem filterNonLabels_worded {p q : TParser} (h : p.worded = q.worded) : p.filterNonLabels.worded = q.filterNonLabels.worded := by
  have e : ∀ p : TParser, p.filterNonLabels.worded = p.worded.filterNonLabels := fun _ => rfl
  rw [e, e, h]

/-- The result. -/
theorem result_worded {L : Locale} {p q : TParser} {s : Str} (h : (p.readStream L s).worded = (q.readStream L s).worded) (o : Order) (n : Nat) (v : List Str)
    {r : TParser} {v' : List Str} (hr : p.fromStream L o n s v = some (r, v')) :
    ∃ r', q.fromStream L o n s v = some (r', v') ∧ r'.worded = r.worded := by
  unfold TParser.fromStream at hr ⊢
  generalize p.readStream L s = a at *
  generalize q.readStream L s = b at *
  have h' := filterNonLabels_worded h
  generalize a.filterNonLabels = a at *
  generalize b.filterNonLabels = b at *
  have hd : a.labelsDefined = b.labelsDefined := (congrArg TParser.labelsDefined h' :)
  have key := markLoop_worded o n (o.run .labels (a.labelsDefined.map (·.1))) v h'
  unfold TParser.markLabelUsage at hr ⊢
  rw [← hd]
  cases ha : a.markLoop o n (o.run .labels (a.labelsDefined.map (·.1))) v with
  | none => rw [ha] at hr; cases hr
  | some x =>
    obtain ⟨x, w⟩ := x
    rw [ha] at hr key
    simp only [Option.some.injEq, Prod.mk.injEq] at hr
    obtain ⟨rfl, rfl⟩ := hr
    cases hb : b.markLoop o n (o.run .labels (a.labelsDefined.map (·.1))) v with
    | none => rw [hb] at key; cases key
    | some y =>
      obtain ⟨y, w'⟩ := y
      rw [hb] at key
      simp only [Option.map_some, Option.some.injEq, Prod.mk.injEq] at key
      obtain ⟨k1, rfl⟩ := key
      refine ⟨_, rfl, ?_⟩
      have hl : x.lines.map TLine.worded = y.lines.map TLine.worded := (congrArg TParser.lines k1 :)
      have e : ∀ p : TParser, p.removeUnused.worded = { p.worded with lines := (p.removeLoop {} p.lines).1.map TLine.worded } := fun _ => rfl
      rw [e, e, k1, removeLoop_worded k1 _ _ _ hl]

/-! ### All lines -/

/-- The text of a line is the cleaned text, moved to the left only if the line has a colon. -/
theorem lineText_moved (n : Int) (raw : Str) : ∃ sp t, raw = sp ++ t ∧ (∀ c ∈ sp, Space c) ∧ (sp = [] ∨ c! ':' ∈ raw) ∧
    ∀ g : Filter, lineText g n raw = cleaned g t := by
  by_cases h : n > 0 ∧ isProbablyLabel raw = true
  · obtain ⟨sp, h1, h2⟩ := ltrim_split raw
    refine ⟨sp, ltrim raw, h2, h1, .inr (probablyLabel_colon h.2), fun g => ?_⟩
    unfold lineText fixLabelIndentation cleaned
    rw [if_pos h.1, if_pos h.2]
  · refine ⟨[], raw, rfl, by simp, .inl rfl, fun g => ?_⟩
    unfold lineText fixLabelIndentation cleaned
    by_cases hn : n > 0
    · rw [if_pos hn, if_neg fun hl => h ⟨hn, hl⟩]
    · rw [if_neg hn]

theorem Recog.refl (L : Locale) (u : Str) : Recog L u u := (LinePair.refl L { id := 0, text := u }).recog

theorem Recog.symm {L : Locale} {u v : Str} (h : Recog L u v) : Recog L v u :=
  ⟨h.ends.symm, h.brace.symm, h.file.symm, h.ref.symm, h.stabs.symm, h.dbg.symm, h.d2line.symm, h.d2file.symm, h.sect.symm, h.label.symm, h.data.symm,
    h.dir.symm, h.inst.symm, h.paren.symm, fun c => (h.op c).symm, h.weak.symm, h.glob.symm, h.used.symm, h.proc.symm⟩

theorem steady_of_even (L : Locale) (f g : Filter) {G : Prop} {ws l : Str} (hw : Blanks ws) (hg : ws = [] ∨ G) (h : EvenlySpaced G l) : Steady L f g (ws ++ l) := by
  intro n
  obtain ⟨sp, t, h1, h2, h3, h4⟩ := lineText_moved n (ws ++ l)
  have h3' : sp = [] ∨ c! ':' ∈ l := by
    rcases h3 with h3 | h3
    · exact .inl h3
    · rcases List.mem_append.1 h3 with h3 | h3
      · exact absurd (hw _ h3) (by decide)
      · exact .inr h3
  obtain ⟨k1, k2⟩ := h ws sp t hw hg h1 h2 h3'
  rw [h4 f, h4 g]
  unfold cleaned
  have hp : ¬ IndentedProc (squashHorizontalWhitespaceWithQuotes (expandTabs t) true) := fun hp => k2 ((resp_iff.2 k1.1).indentedProc hp)
  have r := SameWords.recog L k1 hp
  cases f.whitespace <;> cases g.whitespace
  · exact ⟨rfl, Recog.refl L _⟩
  · exact ⟨k1.1.symm, r.symm⟩
  · exact ⟨k1.1, r⟩
  · exact ⟨rfl, Recog.refl L _⟩

theorem eol_even (L : Locale) {p q : TParser} (h : p.worded = q.worded) {G : Prop} {ws cur : Str} (hw : Blanks ws) (hg : ws = [] ∨ G)
    (ht : p.st.text = ws ++ cur) (he : ¬ Blanks cur → EvenlySpaced G cur) : (p.eol L).worded = (q.eol L).worded := by
  refine eol_worded L h fun hb => ?_
  rw [ht] at hb ⊢
  refine steady_of_even L _ _ hw hg (he fun hc => ?_)
  rw [blanks_white.2 (fun c hm => (List.mem_append.1 hm).elim (hw c) (hc c))] at hb
  cases hb

theorem feed_worded (L : Locale) {G : Prop} (s : Str) : ∀ {p q : TParser} (ws cur : Str), p.worded = q.worded → Basic p → Blanks ws →
    (ws = [] ∨ G) → p.st.text = ws ++ cur → (∀ l ∈ inputLinesFrom cur s, l ≠ [] → Blanks l → G) →
    (∀ l ∈ inputLinesFrom cur s, ¬ Blanks l → EvenlySpaced G l) →
    ((s.foldl (TParser.feed L) p).flush L).worded = ((s.foldl (TParser.feed L) q).flush L).worded := by
  induction s with
  | nil =>
    intro p q ws cur h hb hw hg ht hG he
    have e : p.st.text = q.st.text := (congrArg (fun p => p.st.text) h :)
    show (p.flush L).worded = (q.flush L).worded
    by_cases h0 : p.st.text = []
    · rw [flush_nil L p h0, flush_nil L q (e ▸ h0)]; exact h
    · rw [flush_ne L p h0, flush_ne L q (e ▸ h0)]
      refine eol_even L h hw hg ht fun hc => ?_
      refine he cur ?_ hc
      rw [inputLinesFrom, if_neg (fun h => hc (by rw [h]; intro c hc; cases hc))]
      exact List.mem_singleton.2 rfl
  | cons c s ih =>
    intro p q ws cur h hb hw hg ht hG he
    rw [List.foldl_cons, List.foldl_cons]
    by_cases hc : c = 10
    · subst hc
      rw [inputLinesFrom, if_pos rfl] at he hG
      have k : (p.feed L 10).worded = (q.feed L 10).worded := eol_even L h hw hg ht (he cur (List.mem_cons_self))
      have hs := eol_step L p hb
      rcases hs.carry with hr | hr
      · exact ih [] [] k hs.basic (fun c hc => by cases hc) (.inl rfl) hr (fun l hm => hG l (List.mem_cons_of_mem _ hm)) fun l hm => he l (List.mem_cons_of_mem _ hm)
      · by_cases hbl : isEmptyOrJustWhitespace p.st.text = true
        · have hbl' : Blanks (ws ++ cur) := by rw [← ht]; exact blanks_white.1 hbl
          refine ih (ws ++ cur) [] k hs.basic hbl' ?_ (by show (p.eol L).st.text = _; rw [hr, ht, List.append_nil])
            (fun l hm => hG l (List.mem_cons_of_mem _ hm)) fun l hm => he l (List.mem_cons_of_mem _ hm)
          by_cases hcur : cur = []
          · rw [hcur, List.append_nil]; exact hg
          · exact .inr (hG cur List.mem_cons_self hcur fun c hc => hbl' c (List.mem_append_right _ hc))
        · exact ih [] [] k hs.basic (fun c hc => by cases hc) (.inl rfl) (hs.text (by simpa using hbl)) (fun l hm => hG l (List.mem_cons_of_mem _ hm)) fun l hm => he l (List.mem_cons_of_mem _ hm)
    · rw [inputLinesFrom, if_neg hc] at he hG
      have e : ∀ p : TParser, p.feed L c = { p with st := { p.st with text := p.st.text ++ [c] } } := by
        intro p
        unfold TParser.feed
        rw [if_neg (by simpa using hc)]
      refine ih ws (cur ++ [c]) ?_ ?_ hw hg ?_ hG he
      · have e2 : ∀ p : TParser, (p.feed L c).worded = { p.worded with st := { p.worded.st with text := p.worded.st.text ++ [c] } } := by
          intro p; rw [e]; rfl
        rw [e2, e2, h]
      · rw [e]; exact ⟨hb.own, hb.fname, hb.lib⟩
      · rw [e]
        show p.st.text ++ [c] = _
        rw [ht, List.append_assoc]

/-! ### Lines whose blanks can be squashed -/

theorem squeeze_solid {s : Str} (h : ∀ d ∈ s.head?, ¬ Blank d) : squeeze true s = squeeze false s := by
  cases s with
  | nil => rfl
  | cons c s => rw [squeeze, squeeze, if_neg (h c rfl), if_neg (h c rfl)]

theorem squeeze_skip {bs : Str} (hb : Blanks bs) (s : Str) : squeeze true (bs ++ s) = squeeze true s := by
  induction bs with
  | nil => rfl
  | cons c bs ih =>
    rw [List.cons_append, squeeze, if_pos (hb c (by simp)), if_pos rfl]
    exact ih fun d hd => hb d (List.mem_cons_of_mem _ hd)

theorem squeeze_resp (s : Str) : Resp (squeeze false s) s := by
  suffices h : ∀ n (s : Str), s.length ≤ n → Resp (squeeze false s) s from h _ s (Nat.le_refl _)
  intro n
  induction n with
  | zero => intro s hs; rw [List.length_eq_zero_iff.1 (Nat.le_zero.1 hs)]; exact .nil
  | succ n ih =>
    intro s hs
    rcases run_cases s with rfl | ⟨c, w, hc, rfl⟩ | ⟨bs, w, h1, h2, h3, rfl⟩
    · exact .nil
    · rw [squeeze, if_neg hc]
      exact .char hc (ih w (by simpa using hs))
    · cases bs with
      | nil => exact absurd rfl h1
      | cons b bs =>
        rw [List.cons_append, squeeze, if_pos (h2 b (by simp)), if_neg (by simp), squeeze_skip (fun d hd => h2 d (List.mem_cons_of_mem _ hd)),
          squeeze_solid h3]
        have hr := ih w (by simp at hs; omega)
        have : ∀ d ∈ (squeeze false w).head?, ¬ Blank d := by
          cases w with
          | nil => intro d hd; cases hd
          | cons x w =>
            intro d hd
            rw [squeeze, if_neg (h3 x rfl)] at hd
            cases hd
            exact h3 _ rfl
        exact Resp.gap (bs := [32]) (cs := b :: bs) (by simp) (fun c hc => by rw [List.mem_singleton.1 hc]; exact .inl rfl) h1 h2 this h3 hr

theorem squash_resp {bs r : Str} {c : Byte} (hb : Blanks bs) (hc : ¬ Blank c) (h : 2 ≤ bs.length ∨ ∀ d ∈ r.head?, ¬ Blank d) :
    Resp (squashHorizontalWhitespace (bs ++ c :: r) true) (bs ++ c :: r) := by
  have e : squashHorizontalWhitespace (bs ++ c :: r) true = squashLoop .start (bs ++ c :: r) := by
    unfold squashHorizontalWhitespace
    rw [if_neg, if_pos rfl]
    intro h
    rw [Bool.true_and, List.all_eq_true] at h
    exact hc (blank_iff.2 (h c (by simp)))
  rw [e]
  match bs, hb, h with
  | [], _, h =>
    have h : ∀ d ∈ r.head?, ¬ Blank d := h.resolve_left (by simp)
    rw [List.nil_append, squash_start_word hc, squeeze_solid h]
    exact .char hc (squeeze_resp r)
  | [b], hb, h =>
    have h : ∀ d ∈ r.head?, ¬ Blank d := h.resolve_left (by simp)
    rw [List.singleton_append, squash_start_one (hb b (by simp)) hc, squeeze_solid h]
    exact Resp.gap (bs := [32]) (cs := [b]) (by simp) (fun c hc => by rw [List.mem_singleton.1 hc]; exact .inl rfl) (by simp) hb
      (by intro d hd; cases hd; exact hc) (by intro d hd; cases hd; exact hc) (.char hc (squeeze_resp r))
  | a :: b :: bs, hb, _ =>
    rw [List.cons_append, List.cons_append, squash_start_two (hb a (by simp)) (hb b (by simp)),
      squeeze_skip (fun d hd => hb d (List.mem_cons_of_mem _ (List.mem_cons_of_mem _ hd))), squeeze, if_neg hc]
    exact Resp.gap (bs := [32, 32]) (cs := a :: b :: bs) (by simp) (by intro c hc; simp at hc; exact .inl hc) (by simp) hb
      (by intro d hd; cases hd; exact hc) (by intro d hd; cases hd; exact hc) (.char hc (squeeze_resp r))

/-! ### Simple lines -/

theorem padTabs_blanks {a : Str} (h : Blanks a) : ∀ k, Blanks (padTabs k a) := by
  induction a with
  | nil => intro k c hc; cases hc
  | cons c a ih =>
    intro k d hd
    have ih := ih fun d hd => h d (List.mem_cons_of_mem _ hd)
    rw [padTabs] at hd
    split at hd
    · rcases List.mem_append.1 hd with hd | hd
      · exact .inl (List.eq_of_mem_replicate hd)
      · exact ih _ d hd
    · rcases List.mem_cons.1 hd with rfl | hd
      · exact h _ (by simp)
      · exact ih _ d hd

theorem padTabs_length (a : Str) : ∀ k, a.length ≤ (padTabs k a).length := by
  induction a with
  | nil => intro k; exact Nat.le_refl _
  | cons c a ih =>
    intro k
    rw [padTabs]
    split
    · have := ih k
      rw [List.length_append, List.length_replicate, List.length_cons]
      omega
    · have := ih (k + 1)
      rw [List.length_cons, List.length_cons]
      omega

theorem padTabs_mem {a : Str} {d : Byte} (hd : ¬ Blank d) : ∀ k, d ∈ padTabs k a → d ∈ a := by
  induction a with
  | nil => intro k h; exact h
  | cons c a ih =>
    intro k h
    rw [padTabs] at h
    split at h
    · rcases List.mem_append.1 h with h | h
      · exact absurd (.inl (List.eq_of_mem_replicate h)) hd
      · exact List.mem_cons_of_mem _ (ih _ h)
    · rcases List.mem_cons.1 h with rfl | h
      · simp
      · exact List.mem_cons_of_mem _ (ih _ h)

theorem padTabs_none {a : Str} (h : 9 ∉ a) : ∀ k, padTabs k a = a := by
  induction a with
  | nil => intro k; rfl
  | cons c a ih =>
    intro k
    rw [padTabs, if_neg (fun e => h (by rw [e]; simp)), ih fun e => h (List.mem_cons_of_mem _ e)]

theorem padTabs_solid {a : Str} (h : ∀ d ∈ a.head?, ¬ Blank d) (k : Nat) : ∀ d ∈ (padTabs k a).head?, ¬ Blank d := by
  cases a with
  | nil => intro d hd; cases hd
  | cons c a =>
    have hc := h c rfl
    intro d hd
    rw [padTabs, if_neg (fun e => hc (.inr e))] at hd
    cases hd
    exact hc

theorem padTabs_prefix {w : Str} (hw : ∀ c ∈ w, ¬ Blank c) : ∀ (a : Str) (k : Nat), w <+: padTabs k a → w <+: a := by
  induction w with
  | nil => intro a k _; exact List.nil_prefix
  | cons x w ih =>
    intro a k h
    cases a with
    | nil => exact h
    | cons c a =>
      obtain ⟨r, hr⟩ := h
      rw [padTabs] at hr
      split at hr
      · exfalso
        rename_i hc
        obtain ⟨n, hn⟩ : ∃ n, 8 - k % 8 = n + 1 := ⟨8 - k % 8 - 1, by omega⟩
        rw [hn, List.replicate_succ, List.cons_append, List.cons_append, List.cons.injEq] at hr
        exact hw x (by simp) (.inl hr.1)
      · rw [List.cons_append, List.cons.injEq] at hr
        obtain ⟨y, hy⟩ := ih (fun c hc => hw c (List.mem_cons_of_mem _ hc)) a (k + 1) ⟨r, hr.2⟩
        exact ⟨y, by rw [hr.1, List.cons_append, hy]⟩

theorem noLiteral_of {s : Str} (h : c! '"' ∉ s) : NoLiteral s := by
  rintro u q r rfl ⟨t, rfl, -⟩
  exact h (by simp)

theorem literalTail_of {m : Str} (h : ∀ d ∈ m, d ≠ c! '"' ∧ d ≠ c! '\\') : LiteralTail (m ++ b! "\"") := by
  induction m with
  | nil => exact .close
  | cons d m ih =>
    exact .plain (h d (by simp)).1 (h d (by simp)).2 (ih fun x hx => h x (List.mem_cons_of_mem _ hx))

theorem firstLiteral_of {u m : Str} (hu : c! '"' ∉ u) (h : ∀ d ∈ m, d ≠ c! '"' ∧ d ≠ c! '\\') :
    FirstLiteral (u ++ (c! '"' :: m ++ b! "\"")) u (c! '"' :: m ++ b! "\"") [] := by
  refine ⟨by simp, ⟨m ++ b! "\"", rfl, literalTail_of h⟩, ?_⟩
  rintro u' q' r' e ⟨t, rfl, -⟩
  refine Nat.le_of_not_lt fun hlt => hu ?_
  have h1 : (u ++ (c! '"' :: m ++ b! "\""))[u'.length]? = some (c! '"') := by
    rw [e]; simp
  rw [List.getElem?_append_left hlt] at h1
  exact List.mem_of_getElem? h1

theorem fromQuote_append {u r : Str} (h : c! '"' ∉ u) : fromQuote (u ++ r) = fromQuote r := by
  unfold fromQuote
  induction u with
  | nil => rfl
  | cons c u ih =>
    have hc : c ≠ c! '"' := fun e => h (by rw [e]; simp)
    rw [List.cons_append, List.dropWhile_cons_of_pos (by simpa using hc)]
    exact ih fun hm => h (List.mem_cons_of_mem _ hm)

theorem fromQuote_none {u : Str} (h : c! '"' ∉ u) : fromQuote u = [] := by
  have := fromQuote_append (r := []) h
  rw [List.append_nil] at this
  rw [this]; rfl

theorem quote_solid : ¬ Blank (c! '"') := by decide

/-- The squashed line, for a line with at most one literal, at the end. -/
theorem sameWords_of {B R q : Str} {c : Byte} (hB : Blanks B) (hc : ¬ Blank c) (hq : c! '"' ∉ c :: R)
    (h : 2 ≤ B.length ∨ ∀ d ∈ R.head?, ¬ Blank d) (hl : q = [] ∨ ∃ m, q = c! '"' :: m ++ b! "\"" ∧ ∀ d ∈ m, d ≠ c! '"' ∧ d ≠ c! '\\') :
    SameWords (squashHorizontalWhitespaceWithQuotes (B ++ c :: R ++ q) true) (B ++ c :: R ++ q) := by
  have r := squash_resp (r := R) hB hc h
  have n1 : c! '"' ∉ B ++ c :: R := by
    intro hm
    rcases List.mem_append.1 hm with hm | hm
    · exact quote_solid (hB _ hm)
    · exact hq hm
  have n2 : c! '"' ∉ squashHorizontalWhitespace (B ++ c :: R) true := fun hm => n1 ((r.mem quote_solid).1 hm)
  rcases hl with rfl | ⟨m, rfl, hm⟩
  · rw [List.append_nil, squashQuotes_none true (noLiteral_of n1)]
    exact ⟨r.oneBlank_eq, fun _ => by rw [fromQuote_none n1, fromQuote_none n2]⟩
  · rw [squashQuotes_first true (firstLiteral_of n1 hm), show squashHorizontalWhitespaceWithQuotes [] true = [] from by
      rw [squashQuotes_none true (noLiteral_of (by simp))]; rfl, List.append_nil]
    refine ⟨(r.append (Resp.refl _) ?_ ?_).oneBlank_eq, fun _ => ?_⟩
    · exact .inr fun d hd => by cases hd; exact quote_solid
    · exact .inr fun d hd => by cases hd; exact quote_solid
    · rw [List.cons_append, fromQuote_append n1, fromQuote_append n2]

theorem PlainlySpaced.even {G : Prop} {l : Str} (h : PlainlySpaced G l) : EvenlySpaced G l := by
  obtain ⟨bs, c, r, q, rfl, hb, hc, hp, hq, hlit, hf⟩ := h
  intro ws sp t hw hg e hsp hcol
  have hcb : ¬ Blank c := fun h => hc (by rcases h with h | h <;> rw [h] <;> unfold Space <;> decide)
  -- the blanks that are left
  obtain ⟨bs2, e1, e2⟩ : ∃ bs2, ws ++ bs = sp ++ bs2 ∧ t = bs2 ++ c :: r ++ q := by
    rw [show ws ++ (bs ++ c :: r ++ q) = (ws ++ bs) ++ (c :: r ++ q) by simp] at e
    rcases List.append_eq_append_iff.1 e with ⟨x, h1, h2⟩ | ⟨x, h1, h2⟩
    · cases x with
      | nil => exact ⟨[], by simp [h1], by simpa using h2.symm⟩
      | cons y x =>
        rw [List.cons_append, List.cons_append, List.cons.injEq] at h2
        exact absurd (hsp y (by rw [h1]; simp)) (h2.1 ▸ hc)
    · exact ⟨x, h1, by rw [h2]; simp⟩
  have hb2 : Blanks bs2 := by
    intro d hd
    have : d ∈ ws ++ bs := by rw [e1]; exact List.mem_append_right _ hd
    rcases List.mem_append.1 this with h | h
    · exact hw d h
    · exact hb d h
  subst e2
  rw [expandTabs_eq, List.append_assoc]
  obtain ⟨k, hk⟩ : ∃ k, padTabs 0 (bs2 ++ (c :: r ++ q)) = padTabs 0 bs2 ++ padTabs k (c :: r ++ q) := ⟨_, padTabs_append 0 bs2 _⟩
  have hc9 : ¬ c = 9 := fun e => hcb (.inr e)
  have hq9 : 9 ∉ q := by
    rcases hlit with rfl | ⟨m, rfl, hm⟩
    · simp
    · intro h9
      rw [List.cons_append] at h9
      rcases List.mem_cons.1 h9 with h9 | h9
      · exact absurd h9 (by decide)
      · rcases List.mem_append.1 h9 with h9 | h9
        · exact (hm _ h9).2.2 rfl
        · exact absurd (List.mem_singleton.1 h9) (by decide)
  have hk2 := padTabs_append (k + 1) r q
  have e3 : padTabs k (c :: r ++ q) = c :: padTabs (k + 1) r ++ q := by
    rw [List.cons_append, padTabs, if_neg hc9, hk2, padTabs_none hq9]; rfl
  have hlit' : q = [] ∨ ∃ m, q = c! '"' :: m ++ b! "\"" ∧ ∀ d ∈ m, d ≠ c! '"' ∧ d ≠ c! '\\' :=
    hlit.imp id fun ⟨m, h1, h2⟩ => ⟨m, h1, fun d hd => ⟨(h2 d hd).1, (h2 d hd).2.1⟩⟩
  refine ⟨?_, ?_⟩
  · rw [hk, e3, ← List.append_assoc]
    refine sameWords_of (padTabs_blanks hb2 0) hcb ?_ ?_ hlit'
    · intro hm
      refine hq ?_
      rcases List.mem_cons.1 hm with h | h
      · rw [h]; simp
      · exact List.mem_cons_of_mem _ (padTabs_mem quote_solid _ h)
    · rcases hf with hf | ⟨hn, hi⟩
      · exact .inr (padTabs_solid hf _)
      · left
        have hs : sp = [] := hcol.resolve_right hn
        rw [hs, List.nil_append] at e1
        cases ws with
        | nil =>
          rw [List.nil_append] at e1
          subst e1
          rcases hi with ⟨b, rfl⟩ | hi
          · rw [padTabs, if_pos rfl, List.length_append, List.length_replicate]
            omega
          · exact Nat.le_trans hi (padTabs_length _ _)
        | cons w ws =>
          refine Nat.le_trans ?_ (padTabs_length _ _)
          rw [← e1]
          have : 1 ≤ bs.length := by
            rcases hi with ⟨b, rfl⟩ | hi
            · simp
            · omega
          simp only [List.length_append, List.length_cons]
          omega
  · rintro ⟨bs', r', h1, h2, h3⟩
    have hpad : padTabs 0 (bs2 ++ (c :: r ++ q)) = padTabs 0 bs2 ++ c :: (padTabs (k + 1) r ++ q) := by rw [hk, e3]; rfl
    rw [hpad, show bs' ++ b! "proc" ++ r' = bs' ++ c! 'p' :: (b! "roc" ++ r') by simp] at h3
    obtain ⟨h6, h4, h5⟩ := split_unique (padTabs_blanks hb2 0) h2 hcb (by decide) h3
    obtain ⟨g1, g2⟩ := hp (padTabs_prefix (by decide) _ k (by rw [e3, List.cons_append, h4, h5]; exact ⟨r', rfl⟩))
    rw [g1, hg.resolve_right g2] at e1
    have : bs2 = [] := (List.append_eq_nil_iff.1 e1.symm).2
    rw [this] at h6
    exact h1 h6.symm

end AsmParser
