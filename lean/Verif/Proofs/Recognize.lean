/-
Helper lemmas: the functions of the parser recognize what the specification of text mode says.
-/
import Verif.Proofs.SourceStep

namespace AsmParser
open Re Regexes

attribute [local irreducible] Re.search Re.fullMatch

theorem isCudaEndDef_iff (line : Str) : isCudaEndDef line = true ↔ ∃ bs bs', Blanks bs ∧ Blanks bs' ∧ line = bs ++ b! ")" ++ bs' := by
  unfold isCudaEndDef
  rw [fullMatch_isSome]
  show (∃ cs, Lang (.seq (.seq (.seq (.seq .bol hs) (chr _)) hs) .eol) 0 line [] cs) ↔ _
  simp only [lang_seq, lang_bol, lang_eol, lang_chr, lang_hs]
  constructor
  · rintro ⟨cs, _, _, _, _, rfl, ⟨_, bs', _, _, rfl, ⟨_, _, _, _, rfl, ⟨_, bs, _, _, rfl, ⟨rfl, -, rfl⟩, ⟨h1, rfl⟩, rfl⟩, ⟨rfl, rfl⟩, rfl⟩,
      ⟨h2, rfl⟩, rfl⟩, ⟨rfl, -, rfl⟩, rfl⟩
    exact ⟨bs, bs', blanks_iff.1 h1, blanks_iff.1 h2, by simp⟩
  · rintro ⟨bs, bs', h1, h2, rfl⟩
    exact ⟨[], bs ++ b! ")" ++ bs', [], [], [], by simp, ⟨bs ++ b! ")", bs', [], [], rfl, ⟨bs, b! ")", [], [], rfl, ⟨[], bs, [], [], rfl, ⟨rfl, trivial, rfl⟩,
      ⟨blanks_iff.2 h1, rfl⟩, rfl⟩, ⟨rfl, rfl⟩, rfl⟩, ⟨blanks_iff.2 h2, rfl⟩, rfl⟩, ⟨rfl, trivial, rfl⟩, rfl⟩

theorem filter_paren {line : Str} {P : Byte → Bool} (hP : ∀ c, P c = true ↔ ¬ Blank c) :
    line.filter P = b! ")" ↔ ∃ bs bs', Blanks bs ∧ Blanks bs' ∧ line = bs ++ b! ")" ++ bs' := by
  have none : ∀ {bs : Str}, Blanks bs → bs.filter P = [] := fun {bs} h => by
    rw [List.filter_eq_nil_iff]
    intro c hc hp
    exact (hP c).1 hp (h c hc)
  constructor
  · intro h
    obtain ⟨a, b, rfl, h1, h2, h3⟩ := List.filter_eq_cons_iff.1 h
    refine ⟨a, b, fun c hc => ?_, fun c hc => ?_, by simp⟩
    · exact Classical.byContradiction fun hb => h1 c hc ((hP c).2 hb)
    · rw [List.filter_eq_nil_iff] at h3
      exact Classical.byContradiction fun hb => h3 c hc ((hP c).2 hb)
  · rintro ⟨bs, bs', h1, h2, rfl⟩
    rw [List.filter_append, List.filter_append, none h1, none h2, List.filter_cons_of_pos ((hP _).2 (by unfold Blank; decide))]
    rfl

theorem isCudaEndDef_filter (line : Str) : isCudaEndDef line = decide (line.filter (fun c => c ≠ 32 ∧ c ≠ 9) = b! ")") := by
  rw [Bool.eq_iff_iff, isCudaEndDef_iff, decide_eq_true_iff, filter_paren]
  intro c
  unfold Blank
  simp

theorem isJustNvccComments_iff (line : Str) : isJustNvccComments line = true ↔ CudaComment line := by
  unfold isJustNvccComments
  rw [fullMatch_isSome]
  show (∃ cs, Lang (.seq (.seq (.seq .bol hs) (.grp 1 _)) .eol) 0 line [] cs) ↔ _
  simp only [lang_seq, lang_bol, lang_eol, lang_chr, lang_hs, lang_many_any, lang_grp, lang_alt, app_eq_seq, lang_lit]
  constructor
  · rintro ⟨cs, w1, w2, c1, c2, rfl, ⟨w3, w4, c3, c4, rfl, ⟨w5, w6, c5, c6, rfl, ⟨rfl, -, rfl⟩, ⟨hb, rfl⟩, rfl⟩, ⟨c7, h, rfl⟩, rfl⟩, ⟨rfl, -, rfl⟩, rfl⟩
    refine ⟨w6, w4, blanks_iff.1 hb, by simp, ?_⟩
    rcases h with ⟨_, ⟨_, r, _, _, rfl, ⟨_, h, rfl⟩, rfl, rfl⟩, rfl⟩ | ⟨_, ⟨_, _, _, _, rfl, ⟨_, _, _, _, rfl, ⟨rfl, rfl⟩, rfl, rfl⟩, ⟨rfl, rfl⟩, rfl⟩, rfl⟩
    · rcases h with ⟨rfl, rfl⟩ | ⟨rfl, rfl⟩ | ⟨rfl, rfl⟩
      · exact .inl (List.prefix_append _ _)
      · exact .inr (.inl (List.prefix_append _ _))
      · exact .inr (.inr (.inl (List.prefix_append _ _)))
    · exact .inr (.inr (.inr ⟨_, rfl⟩))
  · rintro ⟨bs, t, hb, rfl, h⟩
    have hb := blanks_iff.2 hb
    rcases h with ⟨r, rfl⟩ | ⟨r, rfl⟩ | ⟨r, rfl⟩ | ⟨x, rfl⟩
    · exact ⟨_, _, [], _, [], (List.append_nil _).symm, ⟨bs, _, [], _, rfl, ⟨[], bs, [], [], rfl, ⟨rfl, trivial, rfl⟩, ⟨hb, rfl⟩, rfl⟩,
        ⟨_, .inl ⟨_, ⟨_, r, _, _, rfl, ⟨_, .inl ⟨rfl, rfl⟩, rfl⟩, rfl, rfl⟩, rfl⟩, rfl⟩, rfl⟩, ⟨rfl, trivial, rfl⟩, rfl⟩
    · exact ⟨_, _, [], _, [], (List.append_nil _).symm, ⟨bs, _, [], _, rfl, ⟨[], bs, [], [], rfl, ⟨rfl, trivial, rfl⟩, ⟨hb, rfl⟩, rfl⟩,
        ⟨_, .inl ⟨_, ⟨_, r, _, _, rfl, ⟨_, .inr (.inl ⟨rfl, rfl⟩), rfl⟩, rfl, rfl⟩, rfl⟩, rfl⟩, rfl⟩, ⟨rfl, trivial, rfl⟩, rfl⟩
    · exact ⟨_, _, [], _, [], (List.append_nil _).symm, ⟨bs, _, [], _, rfl, ⟨[], bs, [], [], rfl, ⟨rfl, trivial, rfl⟩, ⟨hb, rfl⟩, rfl⟩,
        ⟨_, .inl ⟨_, ⟨_, r, _, _, rfl, ⟨_, .inr (.inr ⟨rfl, rfl⟩), rfl⟩, rfl, rfl⟩, rfl⟩, rfl⟩, rfl⟩, ⟨rfl, trivial, rfl⟩, rfl⟩
    · exact ⟨_, _, [], _, [], (List.append_nil _).symm, ⟨bs, _, [], _, rfl, ⟨[], bs, [], [], rfl, ⟨rfl, trivial, rfl⟩, ⟨hb, rfl⟩, rfl⟩,
        ⟨_, .inr ⟨_, ⟨_, _, _, _, rfl, ⟨_, x, _, _, rfl, ⟨rfl, rfl⟩, rfl, rfl⟩, ⟨rfl, rfl⟩, rfl⟩, rfl⟩, rfl⟩, rfl⟩, ⟨rfl, trivial, rfl⟩, rfl⟩

/-! ### Headers of CUDA functions -/

/-- Is the line a CUDA function header? -/
def isHeader (line : Str) : Bool := match getLabelFromLine line with | some (_, _, c) => c | none => false

theorem isHeader_iff (line : Str) : isHeader line = true ↔ StartsCuda line := by
  unfold isHeader getLabelFromLine StartsCuda
  cases h1 : getLabel line with
  | some l =>
    simp only [Bool.false_eq_true, false_iff]
    rintro ⟨-, h⟩
    exact (h l).1 ((getLabel_iff _ _).1 h1)
  | none =>
    cases h2 : getLabelAssignment line with
    | some l =>
      simp only [Bool.false_eq_true, false_iff]
      rintro ⟨-, h⟩
      exact (h l).2.1 ((getLabelAssignment_iff _ _).1 h2)
    | none =>
      cases h3 : getAssignmentDef line with
      | some l =>
        simp only [Bool.false_eq_true, false_iff]
        rintro ⟨-, h⟩
        exact (h l).2.2 ((getAssignmentDef_iff _ _).1 h3)
      | none =>
        have hno : ∀ l, ¬ DefinesLabel line l ∧ ¬ AssignsLabel line l ∧ ¬ AssignsOnly line l := by
          intro l
          refine ⟨fun h => ?_, fun h => ?_, fun h => ?_⟩
          · rw [(getLabel_iff _ _).2 h] at h1; exact absurd h1 (by simp)
          · rw [(getLabelAssignment_iff _ _).2 h] at h2; exact absurd h2 (by simp)
          · rw [(getAssignmentDef_iff _ _).2 h] at h3; exact absurd h3 (by simp)
        cases h4 : getCudaLabel line with
        | some l => simp only [true_iff]; exact ⟨⟨l, getCudaLabel_header h4⟩, hno⟩
        | none =>
          simp only [Bool.false_eq_true, false_iff]
          rintro ⟨h, -⟩
          have := (getCudaLabel_isSome line).2 h
          rw [h4] at this
          exact absurd this (by simp)

theorem getLabelFromLine_isNone (line : Str) : (getLabelFromLine line).isNone = true ↔ ∀ l, ¬ DefinesOrAssigns line l := by
  rw [Option.isNone_iff_eq_none]
  constructor
  · exact fun h l => getLabelFromLine_none h l
  · intro h
    cases hg : getLabelFromLine line with
    | none => rfl
    | some x => exact (h _ (getLabelFromLine_defines (a := x.2.1) (c := x.2.2) hg)).elim

theorem plainDirective_iff (line : Str) :
    (isDirective line && (getLabelFromLine line).isNone && !isDataDefn line && !isInstOpcode line) = true ↔ PlainDirective line := by
  unfold PlainDirective
  rw [Bool.and_eq_true, Bool.and_eq_true, Bool.and_eq_true, C29_directive, getLabelFromLine_isNone, Bool.not_eq_true', Bool.not_eq_true', ← C29_data,
    ← isInstOpcode_iff, and_assoc, and_assoc, Bool.not_eq_true, Bool.not_eq_true]
  rfl

theorem isInstOpcode_occurs (line : Str) : isInstOpcode line = occurs b! ".inst" line := by
  rw [Bool.eq_iff_iff, isInstOpcode_iff, occurs_iff]

/-! ### Lines with source information -/

theorem dbgMark_iff (t : Str) : (source6502DbgEnd.search t).isSome = true ↔ DbgMark t := by
  rw [search_isSome]
  constructor
  · rintro ⟨u, w, rest, cs, rfl, hl⟩
    unfold source6502DbgEnd at hl
    obtain ⟨w1, z, _, _, rfl, g1, k, rfl⟩ := lang_seq.1 hl
    obtain ⟨hu, -, bs, bs', hb, hb1, hb2, rfl⟩ := lang_instr g1
    obtain rfl : u = [] := List.eq_nil_of_length_eq_zero hu
    obtain ⟨rfl, rfl⟩ := lang_lit.1 k
    exact ⟨rest, bs, bs', hb, hb1, hb2, by simp only [List.append_assoc, List.nil_append]⟩
  · rintro ⟨r, bs, bs', hb, hb1, hb2, rfl⟩
    refine ⟨[], bs ++ b! ".dbg" ++ bs' ++ b! "line", r, [], by simp, ?_⟩
    unfold source6502DbgEnd
    exact lang_seq.2 ⟨_, _, [], [], rfl, lang_seq.2 ⟨_, _, [], [], rfl, lang_seq.2 ⟨_, _, [], [], rfl, lang_seq.2 ⟨[], bs, [], [], rfl, lang_bol.2 ⟨rfl, rfl, rfl⟩,
      lang_hs.2 ⟨blanks_iff.2 hb, rfl⟩, rfl⟩, lang_lit.2 ⟨rfl, rfl⟩, rfl⟩, lang_hs1.2 ⟨hb1, blanks_iff.2 hb2, rfl⟩, rfl⟩, lang_lit.2 ⟨rfl, rfl⟩, rfl⟩

theorem DbgDirective.mark {t file : Str} {n : Int} (h : DbgDirective t file n) : DbgMark t := by
  obtain ⟨bs, q, bs', a, -, -, -, -, -, hi⟩ := h
  refine ⟨b! "," ++ bs ++ q ++ b! "," ++ bs' ++ a, ?_⟩
  simpa [List.append_assoc] using hi

theorem get6502_isSome (t : Str) : (get6502DbgInfo t).isSome = true ↔ DbgMark t := by
  unfold get6502DbgInfo
  cases hm : source6502Dbg.fullMatch t with
  | some m =>
    obtain ⟨f, n, hd⟩ := source6502_form (t := t) (by rw [hm]; rfl)
    simp only [Option.isSome_some, true_iff]
    exact hd.mark
  | none =>
    simp only
    rw [← dbgMark_iff]
    split
    · rename_i h; simp [h]
    · rename_i h; simpa using h

/-- Is the line recognized as source information, if it does not end a block? -/
def hasInfo (t : Str) : Bool :=
  (getFileDef t).isSome || (getSourceRef t).1 != 0 || (getSourceInfoFromStabs t).isSome || (get6502DbgInfo t).isSome ||
    (getD2LineInfo t).isSome || (getD2FileInfo t).isSome

theorem hasInfo_iff (t : Str) : hasInfo t = true ↔ SourceInfo t := by
  unfold hasInfo SourceInfo
  simp only [Bool.or_eq_true, or_assoc]
  have h1 : (getFileDef t).isSome = true ↔ ∃ i name, FileDirective t i name := by
    rw [Option.isSome_iff_exists]
    exact ⟨fun ⟨x, hx⟩ => ⟨x.1, x.2, getFileDef_iff.1 hx⟩, fun ⟨i, n, h⟩ => ⟨_, getFileDef_iff.2 h⟩⟩
  have h2 : ((getSourceRef t).1 != 0) = true ↔ ∃ i n c, LocLine t i n c ∧ i ≠ 0 := by
    rw [bne_iff_ne]
    rcases getSourceRef_cases t with ⟨i, n, c, h, e⟩ | ⟨h, e⟩
    · rw [e]
      refine ⟨fun h' => ⟨i, n, c, h, h'⟩, ?_⟩
      rintro ⟨i', n', c', g, g'⟩
      have := getSourceRef_of g
      rw [e] at this
      rw [show i = i' from congrArg (·.1) this]; exact g'
    · rw [e]
      exact ⟨fun h' => (h' rfl).elim, fun ⟨i, n, c, g, _⟩ => (h _ _ _ g).elim⟩
  have h3 : (getSourceInfoFromStabs t).isSome = true ↔ ∃ k n, StabDirective t k n := by
    rcases getStabs_cases t with ⟨k, n, h, e⟩ | ⟨h, e⟩
    · rw [e]; exact ⟨fun _ => ⟨k, n, h⟩, fun _ => rfl⟩
    · rw [e]; exact ⟨fun h => absurd h (by simp), by rintro ⟨k, n, g⟩; exact (h _ _ g).elim⟩
  have h5 : (getD2LineInfo t).isSome = true ↔ ∃ n, D2Line t n := by
    rw [Option.isSome_iff_exists]
    exact ⟨fun ⟨x, hx⟩ => ⟨x, getD2Line_iff.1 hx⟩, fun ⟨n, h⟩ => ⟨_, getD2Line_iff.2 h⟩⟩
  have h6 : (getD2FileInfo t).isSome = true ↔ ∃ n, D2File t n := by
    rw [Option.isSome_iff_exists]
    exact ⟨fun ⟨x, hx⟩ => ⟨x, getD2File_iff.1 hx⟩, fun ⟨n, h⟩ => ⟨_, getD2File_iff.2 h⟩⟩
  rw [h1, h2, h3, get6502_isSome, h5, h6]

theorem ends_iff (p : TParser) (t : Str) :
    (endBlock t || (p.st.inNvccCode && t.contains c! '}')) = true ↔ Seen.Ends { text := t, code := p.st.inNvccCode } := by
  rw [Bool.or_eq_true, endBlock_iff, Bool.and_eq_true, List.contains_iff_mem]; rfl

/-- Which lines are handled as source information. -/
theorem handleSourceDirectives_iff (p : TParser) (ln : TLine) :
    (p.handleSourceDirectives ln).2 = true ↔ ¬ Seen.Ends { text := ln.text, code := p.st.inNvccCode } ∧ SourceInfo ln.text := by
  rw [← hasInfo_iff, ← ends_iff]
  unfold TParser.handleSourceDirectives
  split
  · rename_i h; rw [h]; simp
  · rename_i h
    rw [Bool.not_eq_true] at h
    rw [h]
    simp only [Bool.false_eq_true, not_false_eq_true, true_and]
    unfold TParser.handleFiledef TParser.handleSource TParser.handleStabs TParser.handle6502 TParser.handleD2 hasInfo
    generalize ln.text = t
    cases getFileDef t with
    | some d => simp
    | none =>
      simp only [Option.map_none, Option.isSome_none, Bool.false_or]
      by_cases h0 : (getSourceRef t).1 = 0
      · rw [if_neg (by simpa using h0)]
        simp only [h0, bne_self_eq_false, Bool.false_or]
        cases getSourceInfoFromStabs t with
        | some d => simp
        | none =>
          simp only [Option.map_none, Option.isSome_none, Bool.false_or]
          cases get6502DbgInfo t with
          | some d => simp
          | none =>
            simp only [Option.map_none, Option.isSome_none, Bool.false_or]
            cases getD2LineInfo t with
            | some d => simp
            | none =>
              simp only [Option.isSome_none, Bool.false_or]
              cases getD2FileInfo t <;> simp
      · rw [if_pos (by simpa using h0)]
        simp [h0]

/-! ### Programs that recognize lines -/

/-- The numbers to which the line sets the source line. -/
def linesSet (t : Str) : List Int :=
  (if (getSourceRef t).1 ≠ 0 then [(getSourceRef t).2.1] else []) ++
  (match getSourceInfoFromStabs t with
    | some (k, n) => if k = 68 then [n] else if k = 100 ∨ k = 132 then [0] else []
    | none => []) ++
  (match get6502DbgInfo t with | some d => if d.isEnd then [] else [d.line] | none => []) ++
  (match getD2LineInfo t with | some n => [n] | none => [])

theorem mem_linesSet (t : Str) (n : Int) : n ∈ linesSet t ↔ SetsLine t n := by
  unfold linesSet SetsLine
  simp only [List.mem_append, or_assoc]
  have h1 : n ∈ (if (getSourceRef t).1 ≠ 0 then [(getSourceRef t).2.1] else []) ↔ ∃ i c, LocLine t i n c ∧ i ≠ 0 := by
    rcases getSourceRef_cases t with ⟨i, m, c, h, e⟩ | ⟨h, e⟩
    · rw [e]
      split
      · rename_i h0
        rw [List.mem_singleton]
        constructor
        · rintro rfl; exact ⟨i, c, h, h0⟩
        · rintro ⟨i', c', g, -⟩
          have := getSourceRef_of g
          rw [e] at this
          exact (congrArg (·.2.1) this).symm
      · rename_i h0
        refine ⟨fun h => absurd h (by simp), ?_⟩
        rintro ⟨i', c', g, g'⟩
        have := getSourceRef_of g
        rw [e] at this
        exact (h0 (by rw [show i = i' from congrArg (·.1) this]; exact g')).elim
    · rw [e]
      exact ⟨fun h => by simp at h, fun ⟨i, c, g, _⟩ => (h _ _ _ g).elim⟩
  have h2 : n ∈ (match getSourceInfoFromStabs t with
      | some (k, n) => if k = 68 then [n] else if k = 100 ∨ k = 132 then [0] else []
      | none => []) ↔ StabDirective t 68 n ∨ ∃ k m, StabDirective t k m ∧ (k = 100 ∨ k = 132) ∧ n = 0 := by
    rcases getStabs_cases t with ⟨k, m, h, e⟩ | ⟨h, e⟩
    · have hu : ∀ k' m', StabDirective t k' m' → k' = k ∧ (k = 68 → m' = m) := by
        intro k' m' g
        have g := getStabs_of g
        rw [e] at g
        simp only [Option.some.injEq, Prod.mk.injEq] at g
        refine ⟨g.1.symm, fun h => ?_⟩
        have h2 := g.2
        rw [if_pos h, if_pos (g.1 ▸ h)] at h2
        exact h2.symm
      rw [e]
      simp only
      by_cases h68 : k = 68
      · rw [if_pos h68, if_pos h68, List.mem_singleton]
        constructor
        · rintro rfl; exact .inl (h68 ▸ h)
        · rintro (g | ⟨k', m', g, hk, -⟩)
          · exact (hu _ _ g).2 h68
          · have := (hu _ _ g).1; omega
      · rw [if_neg h68]
        by_cases hk : k = 100 ∨ k = 132
        · rw [if_pos hk, List.mem_singleton]
          constructor
          · rintro rfl; exact .inr ⟨k, m, h, hk, rfl⟩
          · rintro (g | ⟨k', m', g, -, rfl⟩)
            · exact (h68 (hu _ _ g).1.symm).elim
            · rfl
        · rw [if_neg hk]
          refine ⟨fun h => absurd h (by simp), ?_⟩
          rintro (g | ⟨k', m', g, hk', -⟩)
          · exact (h68 (hu _ _ g).1.symm).elim
          · exact (hk ((hu _ _ g).1 ▸ hk')).elim
    · rw [e]
      refine ⟨fun h => absurd h (by simp), ?_⟩
      rintro (g | ⟨k', m', g, -, -⟩)
      · exact (h _ _ g).elim
      · exact (h _ _ g).elim
  have h3 : n ∈ (match get6502DbgInfo t with | some d => if d.isEnd then [] else [d.line] | none => []) ↔ ∃ file, DbgDirective t file n := by
    rcases getDbg_cases t with ⟨f, m, h, e⟩ | ⟨h, e | e⟩
    · rw [e]
      simp only [Bool.false_eq_true, if_false, List.mem_singleton]
      constructor
      · rintro rfl; exact ⟨f, h⟩
      · rintro ⟨f', g⟩
        have := getDbg_of g
        rw [e] at this
        simp only [Option.some.injEq, Dbg6502.mk.injEq] at this
        exact this.2.1.symm
    · rw [e]
      exact ⟨fun h => absurd h (by simp), fun ⟨f, g⟩ => (h _ _ g).elim⟩
    · rw [e]
      exact ⟨fun h => absurd h (by simp), fun ⟨f, g⟩ => (h _ _ g).elim⟩
  have h4 : n ∈ (match getD2LineInfo t with | some n => [n] | none => []) ↔ D2Line t n := by
    rw [← getD2Line_iff]
    cases getD2LineInfo t with
    | none => simp
    | some m => simp only [List.mem_singleton, Option.some.injEq]; exact eq_comm
  rw [h1, h2, h3, h4, or_assoc]

/-- The functions of the parser are such programs. -/
instance recognizers : Recognizers where
  endsBlock line := decidable_of_iff (endBlock line = true) (endBlock_iff line)
  sourceInfo line := decidable_of_iff (hasInfo line = true) (hasInfo_iff line)
  setsZero line := decidable_of_iff (0 ∈ linesSet line) (mem_linesSet line 0)
  setsLine line := decidable_of_iff (linesSet line ≠ []) (by
    rw [← List.isEmpty_eq_false_iff, List.isEmpty_eq_false_iff_exists_mem]
    exact ⟨fun ⟨n, h⟩ => ⟨n, (mem_linesSet line n).1 h⟩, fun ⟨n, h⟩ => ⟨n, (mem_linesSet line n).2 h⟩⟩)
  startsCuda line := decidable_of_iff (isHeader line = true) (isHeader_iff line)
  onlyComment line := decidable_of_iff (isJustComments line = true) (C29_comment line)
  cudaComment line := decidable_of_iff (isJustNvccComments line = true) (isJustNvccComments_iff line)
  plainDirective line := decidable_of_iff _ (plainDirective_iff line)

end AsmParser
