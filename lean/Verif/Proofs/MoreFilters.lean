/-
Helper lemmas: what is shown with more filters is part of what is shown with fewer.
-/
import Verif.Proofs.HeldText
import Verif.Proofs.SourceRead
import Verif.Proofs.TextExact

namespace AsmParser

attribute [local irreducible] Re.search Re.fullMatch

/-! ### Collapsing blank lines is monotonic -/

/-- Would a blank line be dropped next? -/
def ended (ls : List Str) : Bool := match (collapse ls).getLast? with | none => true | some x => decide (x = [])

theorem collapse_add (ls : List Str) (l : Str) : collapse (ls ++ [l]) = collapse ls ++ if l = [] ∧ ended ls = true then [] else [l] := by
  unfold collapse ended
  exact collapseFrom_append true ls l

theorem ended_add (ls : List Str) (l : Str) : ended (ls ++ [l]) = decide (l = []) := by
  have h := collapse_add ls l
  by_cases hl : l = []
  · subst hl
    by_cases he : ended ls = true
    · rw [if_pos ⟨rfl, he⟩, List.append_nil] at h
      unfold ended at he ⊢
      rw [h]; simpa using he
    · rw [if_neg (fun h => he h.2)] at h
      unfold ended
      rw [h]; simp
  · rw [if_neg (fun h => hl h.1)] at h
    unfold ended
    rw [h]; simp [hl]

theorem collapse_mono_aux (xs ys : List Str) (h : ys.Sublist xs) : (collapse ys).Sublist (collapse xs) ∧
    (ended xs = true → ended ys = false → (collapse ys ++ [[]]).Sublist (collapse xs)) := by
  rw [← List.reverse_sublist] at h
  rw [← List.reverse_reverse xs, ← List.reverse_reverse ys]
  generalize xs.reverse = x at *
  generalize ys.reverse = y at *
  induction h with
  | slnil => exact ⟨List.Sublist.refl _, fun _ h => by simp [ended, collapse, collapseFrom] at h⟩
  | @cons l₁ l₂ a h ih =>
    rw [List.reverse_cons, collapse_add, ended_add]
    refine ⟨ih.1.trans (List.sublist_append_left ..), fun h1 h2 => ?_⟩
    have ha : a = [] := by simpa using h1
    subst ha
    by_cases he : ended l₂.reverse = true
    · exact (ih.2 he h2).trans (List.sublist_append_left ..)
    · rw [if_neg (fun h => he h.2)]
      exact ih.1.append (List.Sublist.refl _)
  | @cons_cons l₁ l₂ a h ih =>
    rw [List.reverse_cons, List.reverse_cons, collapse_add, collapse_add, ended_add, ended_add]
    refine ⟨?_, fun h1 h2 => by rw [h1] at h2; cases h2⟩
    by_cases ha : a = []
    · subst ha
      by_cases h1 : ended l₁.reverse = true
      · rw [if_pos ⟨rfl, h1⟩, List.append_nil]
        exact ih.1.trans (List.sublist_append_left ..)
      · rw [if_neg (fun h => h1 h.2)]
        by_cases h2 : ended l₂.reverse = true
        · rw [if_pos ⟨rfl, h2⟩, List.append_nil]
          exact ih.2 h2 (Bool.eq_false_of_ne h1)
        · rw [if_neg (fun h => h2 h.2)]
          exact ih.1.append (List.Sublist.refl _)
    · rw [if_neg (fun h => ha h.1), if_neg (fun h => ha h.1)]
      exact ih.1.append (List.Sublist.refl _)

theorem collapse_mono {xs ys : List Str} (h : ys.Sublist xs) : (collapse ys).Sublist (collapse xs) := (collapse_mono_aux xs ys h).1

/-! ### One line -/

section
variable [Recognizers]

/-- Is the line skipped because of `.cfi_startproc`? -/
def Scan.noProc (f : Filter) (s : Scan) (text : Str) : Bool :=
  decide (f.directives = true ∧ s.placed = false ∧ occurs b! ".cfi_startproc" text)
/-- Is the line skipped because it is a comment? -/
def Scan.skips (f : Filter) (s : Scan) (raw : Str) : Bool :=
  decide (f.libraryFunctions = true ∨ f.commentOnly = true ∧ (if s.code then CudaComment raw else OnlyComment raw))
/-- Has the line source information? -/
def Scan.infos (s : Scan) (text : Str) : Bool := decide (¬ (EndsBlock text ∨ s.code = true ∧ c! '}' ∈ text) ∧ SourceInfo text)
/-- Is the line a CUDA header? -/
def Scan.heads (s : Scan) (text : Str) : Bool := decide (s.infos text = false ∧ StartsCuda text)
/-- Is the line a directive that is not shown? -/
def Scan.hides (f : Filter) (s : Scan) (text : Str) : Bool :=
  !(s.params || s.heads text) && decide (f.directives = true ∧ (PlainDirective text ∨ s.infos text = true ∧ ¬ occurs b! ".inst" text))

theorem Scan.see_fields (f : Filter) (s : Scan) (raw text : Str) :
    (s.see f raw text).inside = s.inside ∧ (s.see f raw text).nest = s.nest ∧ (s.see f raw text).carry = s.carry ∧
    (s.see f raw text).code = (s.code || (!s.noProc f text && !s.skips f raw && s.heads text)) ∧
    (s.see f raw text).params = (if !s.noProc f text && !s.skips f raw && (s.params || s.heads text)
      then decide (text.filter (fun c => c ≠ 32 ∧ c ≠ 9) ≠ b! ")") else s.params) ∧
    (s.see f raw text).shown = (if s.noProc f text || s.skips f raw || s.hides f text then s.shown else s.shown ++ [text]) := by
  unfold Scan.see
  by_cases h1 : f.directives = true ∧ s.placed = false ∧ occurs b! ".cfi_startproc" text = true
  · rw [if_pos h1, show s.noProc f text = true from decide_eq_true h1]
    simp
  · rw [if_neg h1, show s.noProc f text = false from decide_eq_false h1]
    have hs : decide (f.libraryFunctions = true ∨ f.commentOnly = true ∧ (if s.code then CudaComment raw else OnlyComment raw)) = s.skips f raw := rfl
    have hi : ∀ sk, decide (¬ Seen.Ends { text := text, code := s.code, skipped := sk, params := s.params, inline := decide (s.nest > 0) } ∧ SourceInfo text) = s.infos text := by
      intro sk
      unfold Scan.infos
      exact decide_eq_decide.2 Iff.rfl
    have hh : decide (s.infos text = false ∧ StartsCuda text) = s.heads text := rfl
    simp only [hs, hi, hh]
    cases h2 : s.skips f raw
    · cases h3 : (s.params || s.heads text)
      · have h4 : decide (f.directives = true ∧ (PlainDirective text ∨ s.infos text = true ∧ ¬ occurs b! ".inst" text)) = s.hides f text := by
          unfold Scan.hides; rw [h3]; rfl
        have h5 : s.heads text = false := by cases hx : s.heads text <;> simp_all
        by_cases h6 : f.directives = true ∧ (PlainDirective text ∨ s.infos text = true ∧ ¬ occurs b! ".inst" text)
        · rw [decide_eq_true h6] at h4
          rw [if_pos h6]
          simp [← h4, h5]
        · rw [decide_eq_false h6] at h4
          rw [if_neg h6]
          simp [← h4, h5]
      · have h4 : s.hides f text = false := by unfold Scan.hides; rw [h3]; rfl
        simp [h4]
    · simp

omit [Recognizers] in
theorem PlainDirective.notHeader {t : Str} (h : PlainDirective t) : ¬ StartsCuda t := fun ⟨⟨k, hk⟩, _⟩ => h.2.1 k (.inr (.inr (.inr hk)))

omit [Recognizers] in
theorem PlainDirective.notClosed {t : Str} (h : PlainDirective t) : t.filter (fun c => c ≠ 32 ∧ c ≠ 9) ≠ b! ")" := by
  obtain ⟨bs, r, hb, rfl⟩ := h.1
  have e : bs.filter (fun c => c ≠ 32 ∧ c ≠ 9) = [] := by
    rw [List.filter_eq_nil_iff]
    intro c hc
    have := hb c hc
    unfold Blank at this
    rcases this with rfl | rfl <;> decide
  rw [List.filter_append, e, List.nil_append, List.filter_cons, if_pos (by decide)]
  intro h
  exact absurd (List.cons.inj h).1 (by decide)

/-- Every line with `.cfi_startproc` is a plain directive. -/
def ProcAlone (f : Filter) (ls : List Str) : Prop :=
  ∀ l ∈ ls, ∀ t inl, Shown f t inl l → Contains t b! ".cfi_startproc" → PlainDirective t

omit [Recognizers] in
theorem shown_of_line (f : Filter) (n : Int) {ws l : Str} (hb : Blanks ws) :
    ∃ inl, Shown f (cleaned f (if n > 0 then fixLabelIndentation (ws ++ l) else ws ++ l)) inl l := by
  obtain ⟨sp, t', h1, h2, h3, h4, -⟩ := lineText_shown f n (ws ++ l)
  refine ⟨decide (0 < n), ws, sp, t', hb, h1, h2, ?_, h4⟩
  simpa using h3

omit [Recognizers] in
theorem proc_directive {t : Str} (h : nonBlanks t = b! ".cfi_startproc") : PlainDirective t := by
  have no : ∀ c : Byte, ¬ Blank c → c ∉ b! ".cfi_startproc" → c ∉ t := by
    intro c hc hn hm
    refine hn ?_
    rw [← h]
    exact List.mem_filter.2 ⟨hm, by simpa using hc⟩
  have no1 := no c! ':' (by decide) (by decide)
  have no2 := no c! '=' (by decide) (by decide)
  have no3 := no c! '(' (by decide) (by decide)
  refine ⟨?_, ?_, ?_, ?_⟩
  · obtain ⟨bs, r, h1, h2, -⟩ := nonBlanks_split h
    exact ⟨bs, r, h1, h2⟩
  · rintro l (⟨-, -, ⟨r, rfl⟩ | ⟨x, bs, r, rfl, -⟩⟩ | ⟨c, x, bs, r, -, -, -, -, -, rfl⟩ | ⟨bs, bs', c, x, -, -, -, -, -, -, rfl⟩ |
      ⟨a, bs, ret, c, x, -, -, -, -, -, -, rfl⟩)
    · exact no1 (by simp)
    · exact no1 (by simp)
    · exact no2 (by simp)
    · exact no2 (by simp)
    · exact no3 (by simp)
  · rintro ⟨bs, kw, r, hb, hk, rfl⟩
    rw [nonBlanks_append, nonBlanks_append, nonBlanks_blanks.2 hb, List.nil_append] at h
    have : ∀ kw ∈ dataDirectives, nonBlanks kw = kw ∧ ¬ kw <+: b! ".cfi_startproc" := by decide
    rw [(this kw hk).1] at h
    exact (this kw hk).2 ⟨_, h⟩
  · intro hc
    have := contains_ink hc (by unfold Space; decide)
    rw [← ink_nonBlanks, h, ← occurs_iff] at this
    exact absurd this (by decide)

omit [Recognizers] in
theorem procAlone {f : Filter} {ls : List Str} (h : ∀ l ∈ ls, Contains (ink l) b! ".cfi_startproc" → nonBlanks l = b! ".cfi_startproc") :
    ProcAlone f ls := by
  intro l hl t inl ⟨ws, sp, t', g1, g4, g5, _, g6⟩ hc
  have e : ink t = ink l := by
    rw [g6, ink_cleaned]
    have := congrArg ink g4
    rw [ink_append, ink_append, ink_blanks g1, ink_spaces g5] at this
    exact this.symm
  have hc := contains_ink hc (by unfold Space; decide)
  rw [e] at hc
  have h := h l hl hc
  refine proc_directive ?_
  rw [g6, nonBlanks_cleaned]
  have g4 := congrArg nonBlanks g4
  rw [nonBlanks_append, nonBlanks_append, nonBlanks_blanks.2 g1, List.nil_append, h] at g4
  -- no white space is left over
  have hsp : nonBlanks sp = [] := by
    cases hx : nonBlanks sp with
    | nil => rfl
    | cons c r =>
      rw [hx, List.cons_append] at g4
      have hm : c ∈ sp := (List.mem_filter.1 (show c ∈ nonBlanks sp by rw [hx]; simp)).1
      have := g5 c hm
      rw [← (List.cons.inj g4).1] at this
      exact absurd this (by unfold Space; decide)
  rw [hsp, List.nil_append] at g4
  exact g4.symm

/-! ### The filter `directives` -/

structure SameB (a b : Scan) : Prop where
  inside : a.inside = b.inside
  nest : a.nest = b.nest
  carry : a.carry = b.carry
  code : a.code = b.code
  params : a.params = b.params
  blanks : Blanks a.carry
  sub : b.shown.Sublist a.shown

theorem SameB.line {f g : Filter} (hd : f.directives = false) (hc : f.commentOnly = g.commentOnly) (hw : f.whitespace = g.whitespace)
    (hl : f.libraryFunctions = g.libraryFunctions) {ls : List Str} (hp : ProcAlone f ls) {a b : Scan} (h : SameB a b) {l : Str} (hm : l ∈ ls) :
    SameB (a.line f l) (b.line g l) := by
  have hcl : ∀ t, cleaned g t = cleaned f t := fun t => by unfold cleaned; rw [hw]
  unfold Scan.line
  simp only [hcl, ← h.inside, ← h.carry, ← hc, ← h.nest]
  split
  · exact ⟨rfl, rfl, rfl, h.code, h.params, by intro c hc; simp at hc, h.sub⟩
  split
  · rename_i hbl
    exact ⟨rfl, rfl, rfl, h.code, h.params, blanks_of_all hbl, h.sub.append (List.Sublist.refl _)⟩
  generalize (if startsWithWord [b! "#APP", b! "# Begin ASM"] (a.carry ++ l) = true then a.nest + 1
        else if startsWithWord [b! "#NO_APP", b! "# End ASM"] (a.carry ++ l) = true then a.nest - 1 else a.nest) = n
  obtain ⟨inl, hsh⟩ := shown_of_line f n (l := l) h.blanks
  have hp := hp l hm _ inl hsh
  generalize cleaned f (if n > 0 then fixLabelIndentation (a.carry ++ l) else a.carry ++ l) = text at *
  generalize a.carry ++ l = raw at *
  have hab : SameB { a with nest := n, carry := [] } { b with inside := a.inside, nest := n, carry := [] } :=
    ⟨rfl, rfl, rfl, h.code, h.params, by intro c hc; simp at hc, h.sub⟩
  clear h hsh hm
  generalize ({ a with nest := n, carry := [] } : Scan) = a' at *
  generalize ({ b with inside := a.inside, nest := n, carry := [] } : Scan) = b' at *
  obtain ⟨a1, a2, a3, a4, a5, a6⟩ := Scan.see_fields f a' raw text
  obtain ⟨b1, b2, b3, b4, b5, b6⟩ := Scan.see_fields g b' raw text
  have e1 : a'.noProc f text = false := by unfold Scan.noProc; simp [hd]
  have e2 : b'.skips g raw = a'.skips f raw := by unfold Scan.skips; rw [hab.code, hc, hl]
  have e3 : b'.infos text = a'.infos text := by unfold Scan.infos; rw [hab.code]
  have e4 : b'.heads text = a'.heads text := by unfold Scan.heads; rw [e3]
  have e5 : a'.hides f text = false := by unfold Scan.hides; simp [hd]
  rw [e1, e5] at a6
  rw [e1] at a4 a5
  rw [e2, e4] at b4 b5
  rw [e2] at b6
  refine ⟨by rw [a1, b1, hab.inside], by rw [a2, b2, hab.nest], by rw [a3, b3, hab.carry], ?_, ?_, by rw [a3]; exact hab.blanks, ?_⟩
  · rw [a4, b4, hab.code]
    cases hn : b'.noProc g text
    · rfl
    · have := (hp ((occurs_iff _ _).1 (of_decide_eq_true hn).2.2)).notHeader
      have : a'.heads text = false := by unfold Scan.heads; simp [this]
      simp [this]
  · rw [a5, b5, hab.params]
    cases hn : b'.noProc g text
    · rfl
    · have hpd := hp ((occurs_iff _ _).1 (of_decide_eq_true hn).2.2)
      have : a'.heads text = false := by unfold Scan.heads; simp [hpd.notHeader]
      rw [this, decide_eq_true hpd.notClosed]
      cases b'.params <;> simp
  · rw [a6, b6]
    cases a'.skips f raw
    · cases b'.noProc g text
      · cases b'.hides g text
        · exact hab.sub.append (List.Sublist.refl _)
        · exact hab.sub.trans (List.sublist_append_left ..)
      · exact hab.sub.trans (List.sublist_append_left ..)
    · simpa using hab.sub

/-! ### The filter `comment_only` -/

structure SameC (a b : Scan) : Prop where
  inside : a.inside = false
  nestA : a.nest ≤ 0
  nestB : b.nest ≤ 0
  codeA : a.code = false
  codeB : b.code = false
  paramsA : a.params = false
  paramsB : b.params = false
  blanks : Blanks a.carry
  carry : b.inside = false → a.carry = b.carry
  carryB : b.inside = true → b.carry = []
  sub : b.shown.Sublist a.shown

omit [Recognizers] in
theorem not_startsCuda {f : Filter} {l t : Str} {inl : Bool} (h : Shown f t inl l)
    (hn : ¬ Contains (ink l) b! ".entry" ∧ ¬ Contains (ink l) b! ".func") : ¬ StartsCuda t := by
  rintro ⟨⟨k, a, bs, ret, c, r, h1, -, -, -, -, -, h2⟩, -⟩
  obtain ⟨ws, sp, t', g1, g4, g5, -, g6⟩ := h
  have e : ink t = ink l := by
    rw [g6, ink_cleaned]
    have := congrArg ink g4
    rw [ink_append, ink_append, ink_blanks g1, ink_spaces g5] at this
    exact this.symm
  have hc : Contains t (b! "." ++ k) := ⟨a, bs ++ ret ++ (c :: r) ++ b! "(", by rw [h2]; simp⟩
  have hmem : k = b! "entry" ∨ k = b! "func" := by simpa using h1
  rcases hmem with rfl | rfl
  · have := contains_ink hc (by unfold Space; decide)
    rw [e] at this
    exact hn.1 this
  · have := contains_ink hc (by unfold Space; decide)
    rw [e] at this
    exact hn.2 this

omit [Recognizers] in
theorem dropWhile_blank (x : Str) : ∃ bs, Blanks bs ∧ x = bs ++ x.dropWhile fun c => c = 32 || c = 9 := by
  refine ⟨x.takeWhile fun c => c = 32 || c = 9, fun c hc => ?_, (List.takeWhile_append_dropWhile ..).symm⟩
  have := List.all_eq_true.1 (List.all_takeWhile (p := fun c : Byte => c = 32 || c = 9) (l := x)) c hc
  simpa [Blank] using this

omit [Recognizers] in
theorem dropWhile_blanks {ws : Str} (h : Blanks ws) (l : Str) :
    (ws ++ l).dropWhile (fun c => c = 32 || c = 9) = l.dropWhile fun c => c = 32 || c = 9 := by
  induction ws with
  | nil => rfl
  | cons c ws ih =>
    have hc : c = 32 ∨ c = 9 := by simpa [Blank] using h c (by simp)
    rw [List.cons_append, List.dropWhile_cons, if_pos (by simpa using hc), ih fun d hd => h d (by simp [hd])]

omit [Recognizers] in
theorem noApp {s : Str} (ha : NoInlineAsm s) {ws l : Str} (hb : Blanks ws) (hl : l ∈ inputLines s) :
    startsWithWord [b! "#APP", b! "# Begin ASM"] (ws ++ l) = false := by
  unfold startsWithWord
  rw [dropWhile_blanks hb]
  obtain ⟨bs, h1, h2⟩ := dropWhile_blank l
  rw [List.any_eq_false]
  intro w hw hpre
  obtain ⟨r, hr⟩ := List.isPrefixOf_iff_prefix.1 hpre
  rw [← hr, ← List.append_assoc] at h2
  have := ha l hl bs r h1
  simp only [List.mem_cons, List.not_mem_nil, or_false] at hw
  rcases hw with rfl | rfl
  · exact this.1 h2
  · exact this.2 h2

omit [Recognizers] in
theorem not_blank_of_mem {raw : Str} {c : Byte} (h : c ∈ raw) (hc : ¬ Blank c) : raw.all (fun c => c = 32 || c = 9) = false := by
  cases hx : raw.all (fun c => c = 32 || c = 9) with
  | false => rfl
  | true => exact absurd (blanks_of_all hx c h) hc

/-- The line in the scan that shows comments. -/
structure Sees (f : Filter) (a : Scan) (raw text : Str) (a' : Scan) : Prop where
  inside : a'.inside = a.inside
  nest : a'.nest ≤ 0
  carry : a'.carry = []
  code : a'.code = a.code
  params : a'.params = a.params
  shown : a'.shown = if a.noProc f text || a.skips f raw || a.hides f text then a.shown else a.shown ++ [text]

theorem line_sees {s : Str} (f : Filter) (ha : NoInlineAsm s) (hn : NoCuda s) {a : Scan} {l : Str} (hl : l ∈ inputLines s) (h1 : a.nest ≤ 0)
    (hb : Blanks a.carry) (hp : a.params = false) (hnc : (f.commentOnly && (a.inside || opensComment (a.carry ++ l))) = false)
    (hnb : (a.carry ++ l).all (fun c => c = 32 || c = 9) = false) :
    Sees f a (a.carry ++ l) (cleaned f (a.carry ++ l)) (a.line f l) := by
  unfold Scan.line
  simp only [hnc, hnb, noApp ha hb hl, Bool.false_eq_true, ↓reduceIte]
  have hn' : (if startsWithWord [b! "#NO_APP", b! "# End ASM"] (a.carry ++ l) = true then a.nest - 1 else a.nest) ≤ 0 := by split <;> omega
  generalize (if startsWithWord [b! "#NO_APP", b! "# End ASM"] (a.carry ++ l) = true then a.nest - 1 else a.nest) = n at *
  rw [if_neg (by omega : ¬ n > 0)]
  obtain ⟨inl, hsh⟩ := shown_of_line f 0 (l := l) hb
  rw [if_neg (by omega : ¬ (0 : Int) > 0)] at hsh
  have hc := not_startsCuda hsh (hn l hl)
  generalize a.carry ++ l = raw at *
  generalize cleaned f raw = text at *
  obtain ⟨b1, b2, b3, b4, b5, b6⟩ := Scan.see_fields f { a with nest := n, carry := [] } raw text
  have hh : Scan.heads { a with nest := n, carry := [] } text = false := by unfold Scan.heads; simp [hc]
  rw [hh] at b4 b5
  refine ⟨b1, by rw [b2]; exact hn', b3, by rw [b4]; simp, ?_, b6⟩
  rw [b5]
  show (if (_ && _ && (a.params || false)) = true then _ else a.params) = a.params
  rw [hp]
  simp

theorem SameC.line {f g : Filter} (hd : f.directives = g.directives) (hc : f.commentOnly = false) (hc' : g.commentOnly = true) (hw : f.whitespace = g.whitespace)
    (hl : f.libraryFunctions = false) {s : Str} (hp : ProcAlone f (inputLines s)) (ha : NoInlineAsm s) (hn : NoCuda s)
    {a b : Scan} (h : SameC a b) {l : Str} (hm : l ∈ inputLines s) :
    SameC (a.line f l) (b.line g l) := by
  have hcl : ∀ t, cleaned g t = cleaned f t := fun t => by unfold cleaned; rw [hw]
  have hnc : (f.commentOnly && (a.inside || opensComment (a.carry ++ l))) = false := by rw [hc]; rfl
  have more : ∀ {a' : Scan}, Sees f a (a.carry ++ l) (cleaned f (a.carry ++ l)) a' → b.shown.Sublist a'.shown := by
    intro a' hs
    rw [hs.shown]
    split
    · exact h.sub
    · exact h.sub.trans (List.sublist_append_left ..)
  by_cases hcom : (b.inside || opensComment (b.carry ++ l)) = true
  · -- in a comment for `g`
    have eb : b.line g l = { b with inside := !occurs b! "*/" (b.carry ++ l), carry := [] } := by
      unfold Scan.line
      simp only [hc', hcom, Bool.and_true, ↓reduceIte]
    rw [eb]
    cases hbl : (a.carry ++ l).all (fun c => c = 32 || c = 9) with
    | true =>
      have ea : a.line f l = { a with carry := a.carry ++ l, gaps := a.gaps ++ [a.texts.length], shown := a.shown ++ [[]] } := by
        unfold Scan.line
        simp only [hnc, hbl, Bool.false_eq_true, ↓reduceIte]
      have hblk := blanks_of_all hbl
      have hin : b.inside = true := by
        cases hin : b.inside with
        | true => rfl
        | false =>
          rw [hin, Bool.false_or, ← h.carry hin] at hcom
          unfold opensComment at hcom
          obtain ⟨r, hr⟩ := List.isPrefixOf_iff_prefix.1 hcom
          have : c! '/' ∈ a.carry ++ l := (List.dropWhile_sublist _).subset (by rw [← hr]; simp)
          exact absurd (hblk _ this) (by decide)
      have ho : occurs b! "*/" (b.carry ++ l) = false := by
        cases ho : occurs b! "*/" (b.carry ++ l) with
        | false => rfl
        | true =>
          obtain ⟨x, y, e⟩ := (occurs_iff _ _).1 ho
          rw [h.carryB hin, List.nil_append] at e
          have : c! '/' ∈ a.carry ++ l := by rw [e]; simp
          exact absurd (hblk _ this) (by decide)
      rw [ea, ho]
      exact ⟨h.inside, h.nestA, h.nestB, h.codeA, h.codeB, h.paramsA, h.paramsB, hblk, fun h => by simp at h, fun _ => rfl,
        h.sub.trans (List.sublist_append_left ..)⟩
    | false =>
      have hs := line_sees f ha hn hm h.nestA h.blanks h.paramsA hnc hbl
      exact ⟨hs.inside.trans h.inside, hs.nest, h.nestB, hs.code.trans h.codeA, h.codeB, hs.params.trans h.paramsA, h.paramsB,
        by rw [hs.carry]; intro c hc; simp at hc, fun _ => hs.carry, fun _ => rfl, more hs⟩
  · have hcom := Bool.eq_false_of_ne hcom
    have hin : b.inside = false := by cases hx : b.inside <;> simp_all
    have hca := h.carry hin
    have hnc' : (g.commentOnly && (b.inside || opensComment (b.carry ++ l))) = false := by rw [hcom]; simp
    cases hbl : (a.carry ++ l).all (fun c => c = 32 || c = 9) with
    | true =>
      have ea : a.line f l = { a with carry := a.carry ++ l, gaps := a.gaps ++ [a.texts.length], shown := a.shown ++ [[]] } := by
        unfold Scan.line
        simp only [hnc, hbl, Bool.false_eq_true, ↓reduceIte]
      have eb : b.line g l = { b with carry := b.carry ++ l, gaps := b.gaps ++ [b.texts.length], shown := b.shown ++ [[]] } := by
        unfold Scan.line
        rw [hca] at hbl
        simp only [hnc', hbl, Bool.false_eq_true, ↓reduceIte]
      rw [ea, eb]
      exact ⟨h.inside, h.nestA, h.nestB, h.codeA, h.codeB, h.paramsA, h.paramsB, blanks_of_all hbl, fun _ => by simp only; rw [hca],
        fun h => (by rw [show b.inside = true from h] at hin; cases hin), h.sub.append (List.Sublist.refl _)⟩
    | false =>
      have hs := line_sees f ha hn hm h.nestA h.blanks h.paramsA hnc hbl
      have hs' := line_sees g ha hn hm h.nestB (hca ▸ h.blanks) h.paramsB hnc' (hca ▸ hbl)
      refine ⟨hs.inside.trans h.inside, hs.nest, hs'.nest, hs.code.trans h.codeA, hs'.code.trans h.codeB, hs.params.trans h.paramsA,
        hs'.params.trans h.paramsB, by rw [hs.carry]; intro c hc; simp at hc, fun _ => by rw [hs.carry, hs'.carry],
        fun _ => hs'.carry, ?_⟩
      have hse := hs'.shown
      rw [hcl, ← hca] at hse
      rw [hse, hs.shown]
      obtain ⟨inl, hsh⟩ := shown_of_line f 0 (l := l) h.blanks
      rw [if_neg (by omega : ¬ (0 : Int) > 0)] at hsh
      have hp := hp l hm _ inl hsh
      have hcu := not_startsCuda hsh (hn l hm)
      generalize cleaned f (a.carry ++ l) = text at *
      generalize a.carry ++ l = raw at *
      have e1 : a.skips f raw = false := by unfold Scan.skips; simp [hc, hl]
      have e2 : b.infos text = a.infos text := by unfold Scan.infos; rw [h.codeA, h.codeB]
      have e3 : b.heads text = false := by unfold Scan.heads; simp [hcu]
      have e4 : a.heads text = false := by unfold Scan.heads; simp [hcu]
      have e5 : b.hides g text = a.hides f text := by unfold Scan.hides; rw [e2, e3, e4, h.paramsA, h.paramsB, hd]
      rw [e1, e5]
      cases hn : a.noProc f text with
      | false =>
        cases a.hides f text
        · simp only [Bool.or_false, Bool.false_eq_true, ↓reduceIte]
          split
          · exact h.sub.trans (List.sublist_append_left ..)
          · exact h.sub.append (List.Sublist.refl _)
        · simpa using h.sub
      | true =>
        obtain ⟨h1, -, h2⟩ := of_decide_eq_true hn
        have : a.hides f text = true := by
          unfold Scan.hides
          rw [e4, h.paramsA]
          simp [h1, hp ((occurs_iff _ _).1 h2)]
        rw [this]
        simpa using h.sub

/-! ### Both -/

theorem scan_congr {f g : Filter} (h1 : f.directives = g.directives) (h2 : f.commentOnly = g.commentOnly) (h3 : f.whitespace = g.whitespace)
    (h4 : f.libraryFunctions = g.libraryFunctions) (s : Str) : scan f s = scan g s := by
  have e : Scan.line f = Scan.line g := by
    funext a l
    unfold Scan.line Scan.see cleaned
    simp only [h1, h2, h3, h4]
  unfold scan
  rw [e]

theorem scan_ind {f g : Filter} (R : Scan → Scan → Prop) (s : Str) (h0 : R {} {})
    (h : ∀ a b l, l ∈ inputLines s → R a b → R (a.line f l) (b.line g l)) : R (scan f s) (scan g s) := by
  unfold scan
  have : ∀ (ls : List Str) (a b : Scan), (∀ l ∈ ls, l ∈ inputLines s) → R a b → R (ls.foldl (Scan.line f) a) (ls.foldl (Scan.line g) b) := by
    intro ls
    induction ls with
    | nil => intro a b _ h; exact h
    | cons l ls ih =>
      intro a b hm hr
      exact ih _ _ (fun x hx => hm x (by simp [hx])) (h a b l (hm l (by simp)) hr)
  exact this _ _ _ (fun _ h => h) h0

theorem shown_mono {f g : Filter} {s : Str} (hw : f.whitespace = g.whitespace) (hl : f.libraryFunctions = false) (hl' : g.libraryFunctions = false)
    (hd : f.directives = true → g.directives = true) (hc : f.commentOnly = true → g.commentOnly = true)
    (hq : f.commentOnly = g.commentOnly ∨ NoInlineAsm s ∧ NoCuda s) (hp : ProcAlone f (inputLines s)) :
    (scan g s).shown.Sublist (scan f s).shown := by
  have step1 : (scan { f with commentOnly := g.commentOnly } s).shown.Sublist (scan f s).shown := by
    by_cases he : f.commentOnly = g.commentOnly
    · rw [scan_congr (f := { f with commentOnly := g.commentOnly }) (g := f) rfl he.symm rfl rfl]
      exact List.Sublist.refl _
    · obtain ⟨ha, hn⟩ := hq.resolve_left he
      have h1 : f.commentOnly = false := by
        cases hx : f.commentOnly with
        | false => rfl
        | true => exact absurd (hx.trans (hc hx).symm) he
      have h2 : g.commentOnly = true := by
        cases hx : g.commentOnly with
        | true => rfl
        | false => exact absurd (h1.trans hx.symm) he
      have : SameC (scan f s) (scan { f with commentOnly := g.commentOnly } s) :=
        scan_ind SameC s ⟨rfl, by decide, by decide, rfl, rfl, rfl, rfl, by intro c hc; simp at hc, fun _ => rfl, fun _ => rfl, List.Sublist.refl _⟩
          fun a b l hm h => h.line (f := f) (g := { f with commentOnly := g.commentOnly }) rfl h1 h2 rfl hl hp ha hn hm
      exact this.sub
  refine List.Sublist.trans ?_ step1
  by_cases he : f.directives = g.directives
  · rw [scan_congr (f := g) (g := { f with commentOnly := g.commentOnly }) he.symm rfl hw.symm (hl'.trans hl.symm)]
    exact List.Sublist.refl _
  · have h1 : f.directives = false := by
      cases hx : f.directives with
      | false => rfl
      | true => exact absurd (hx.trans (hd hx).symm) he
    have : SameB (scan { f with commentOnly := g.commentOnly } s) (scan g s) :=
      scan_ind SameB s ⟨rfl, rfl, rfl, rfl, rfl, by intro c hc; simp at hc, List.Sublist.refl _⟩
        fun a b l hm h => h.line (f := { f with commentOnly := g.commentOnly }) (g := g) h1 rfl hw (hl.trans hl'.symm) hp hm
    exact this.sub

end

end AsmParser
