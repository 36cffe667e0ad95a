/-
Helper lemmas: the remaining line markers of text mode.
-/
import Verif.Proofs.Directives
import Verif.Spec.TextMode
import Verif.Model.AsmText

namespace AsmParser
open Regexes Re

theorem search_lit {k s : Str} : ((lit k).search s).isSome = true ↔ Contains s k := by
  rw [search_isSome]
  simp only [lang_lit]
  constructor
  · rintro ⟨u, w, r, cs, rfl, rfl, rfl⟩; exact ⟨u, r, rfl⟩
  · rintro ⟨u, r, rfl⟩; exact ⟨u, k, r, [], rfl, rfl, rfl⟩

theorem startProcBlock_iff (line : Str) : startProcBlock line = true ↔ Contains line b! ".cfi_startproc" := search_lit
theorem endCommentBlock_iff (line : Str) : endCommentBlock line = true ↔ Contains line b! "*/" := search_lit

theorem endBlock_iff (line : Str) : endBlock line = true ↔
    ∃ k ∈ [b! ".cfi_endproc", b! ".data", b! ".text", b! ".section"], Contains line k := by
  unfold endBlock
  rw [search_isSome]
  show (∃ u w rest cs, line = u ++ w ++ rest ∧ Lang (.seq (chr _) (.grp 1 _)) u.length w rest cs) ↔ _
  simp only [lang_seq, lang_chr, lang_grp, lang_oneOf]
  constructor
  · rintro ⟨u, _, r, _, rfl, _, k, _, _, rfl, ⟨rfl, rfl⟩, ⟨_, ⟨hk, rfl⟩, rfl⟩, rfl⟩
    refine ⟨c! '.' :: k, ?_, u, r, rfl⟩
    simp only [List.mem_cons, List.not_mem_nil, or_false] at hk ⊢
    rcases hk with rfl | rfl | rfl | rfl <;> simp
  · rintro ⟨k, hk, u, r, rfl⟩
    have : ∃ k', k = c! '.' :: k' ∧ k' ∈ [b! "cfi_endproc", b! "data", b! "text", b! "section"] := by
      simp only [List.mem_cons, List.not_mem_nil, or_false] at hk
      rcases hk with rfl | rfl | rfl | rfl
      · exact ⟨b! "cfi_endproc", rfl, by simp⟩
      · exact ⟨b! "data", rfl, by simp⟩
      · exact ⟨b! "text", rfl, by simp⟩
      · exact ⟨b! "section", rfl, by simp⟩
    obtain ⟨k', rfl, hk'⟩ := this
    exact ⟨u, _, r, _, rfl, [c! '.'], k', [], [(1, k')], rfl, ⟨rfl, rfl⟩, ⟨[], ⟨hk', rfl⟩, rfl⟩, rfl⟩

theorem isInstOpcode_iff (line : Str) : isInstOpcode line = true ↔ Contains line b! ".inst" := by
  unfold isInstOpcode
  rw [search_isSome]
  show (∃ u w rest cs, line = u ++ w ++ rest ∧ Lang (.seq (.seq (.grp 1 (.seq (.seq (lit _) (opt (chr _))) (opt (.cls _)))) hs)
    (.grp 2 (many any))) u.length w rest cs) ↔ _
  simp only [lang_seq, lang_chr, lang_grp, lang_lit, lang_opt, lang_cls, lang_hs, lang_many_any]
  constructor
  · rintro ⟨u, _, r, _, rfl, _, w2, _, _, rfl, ⟨_, w4, _, _, rfl, ⟨_, ⟨_, w6, _, _, rfl, ⟨_, w8, _, _, rfl, ⟨rfl, rfl⟩, _⟩, _⟩, rfl⟩, _⟩, _⟩
    exact ⟨u, w8 ++ w6 ++ w4 ++ w2 ++ r, by simp⟩
  · rintro ⟨u, r, rfl⟩
    exact ⟨u, b! ".inst", r, _, rfl, b! ".inst", [], _, _, by simp, ⟨b! ".inst", [], _, _, by simp, ⟨_, ⟨b! ".inst", [], _, _, by simp, ⟨b! ".inst", [], _, _, by simp, ⟨rfl, rfl⟩, .inr ⟨rfl, rfl⟩, rfl⟩, .inr ⟨rfl, rfl⟩, rfl⟩, rfl⟩, ⟨by simp, rfl⟩, rfl⟩, ⟨_, rfl, rfl⟩, rfl⟩

theorem startCommentBlock_iff (line : Str) : startCommentBlock line = true ↔ ∃ bs r, Blanks bs ∧ line = bs ++ b! "/*" ++ r := by
  unfold startCommentBlock
  show ((Re.seq (.seq .bol hs) (lit _)).search line).isSome = true ↔ _
  rw [search_isSome]
  simp only [lang_seq, lang_bol, lang_hs, lang_lit]
  constructor
  · rintro ⟨u, _, r, _, rfl, _, _, _, _, rfl, ⟨_, bs, _, _, rfl, ⟨rfl, h0, rfl⟩, ⟨hb, rfl⟩, rfl⟩, ⟨rfl, rfl⟩, rfl⟩
    have : u = [] := by simpa using h0
    subst this
    exact ⟨bs, r, blanks_iff.1 hb, by simp⟩
  · rintro ⟨bs, r, hb, rfl⟩
    exact ⟨[], bs ++ b! "/*", r, _, by simp, bs, b! "/*", [], [], rfl, ⟨[], bs, [], [], rfl, ⟨rfl, rfl, rfl⟩, ⟨blanks_iff.2 hb, rfl⟩, rfl⟩, ⟨rfl, rfl⟩, rfl⟩

/-- Full matches of `\h*word.*`. -/
theorem fullMatch_word {k line : Str} : ((hs ++ lit k ++ many any).fullMatch line).isSome = true ↔ ∃ bs r, Blanks bs ∧ line = bs ++ k ++ r := by
  rw [fullMatch_isSome]
  show (∃ cs, Lang (.seq (.seq hs (lit _)) (many any)) 0 line [] cs) ↔ _
  simp only [lang_seq, lang_hs, lang_lit, lang_many_any]
  constructor
  · rintro ⟨_, _, r, _, _, rfl, ⟨bs, _, _, _, rfl, ⟨hb, rfl⟩, ⟨rfl, rfl⟩, rfl⟩, _⟩
    exact ⟨bs, r, blanks_iff.1 hb, rfl⟩
  · rintro ⟨bs, r, hb, rfl⟩
    exact ⟨_, _, r, [], [], rfl, ⟨bs, k, [], [], rfl, ⟨blanks_iff.2 hb, rfl⟩, ⟨rfl, rfl⟩, rfl⟩, rfl, rfl⟩

theorem startAppBlock_iff (line : Str) : startAppBlock line = true ↔ ∃ bs r, Blanks bs ∧ line = bs ++ b! "#APP" ++ r := fullMatch_word
theorem endAppBlock_iff (line : Str) : endAppBlock line = true ↔ ∃ bs r, Blanks bs ∧ line = bs ++ b! "#NO_APP" ++ r := fullMatch_word
theorem startAsmNesting_iff (line : Str) : startAsmNesting line = true ↔ ∃ bs r, Blanks bs ∧ line = bs ++ b! "# Begin ASM" ++ r := fullMatch_word
theorem endAsmNesting_iff (line : Str) : endAsmNesting line = true ↔ ∃ bs r, Blanks bs ∧ line = bs ++ b! "# End ASM" ++ r := fullMatch_word

/-! ### Assignments and CUDA headers -/

theorem symStartD_iff {c : Byte} : symStartD c = true ↔ SymbolStart c ∨ c = c! '$' := by
  unfold symStartD
  rw [Bool.or_eq_true, symStart_iff, beq_iff_eq, or_comm]

theorem lang_assignmentDef {p w rest cs} : Lang assignmentDef p w rest cs ↔ p = 0 ∧ ∃ bs bs' c t, (∀ d ∈ bs, isH d = true) ∧
    (∀ d ∈ bs', isH d = true) ∧ symStartD c = true ∧ t ≠ [] ∧ (∀ d ∈ t, symChar d = true) ∧
    w = bs ++ (c :: t) ++ bs' ++ b! "=" ∧ cs = [(1, c :: t)] := by
  show Lang (.seq (.seq (.seq (.seq .bol hs) (.grp 1 (.seq (.cls _) (plus (.cls _))))) hs) (chr _)) p w rest cs ↔ _
  simp only [lang_seq, lang_bol, lang_grp, lang_cls, lang_plus_cls, lang_hs, lang_chr]
  constructor
  · rintro ⟨_, _, _, _, rfl, ⟨_, bs', _, _, rfl, ⟨_, _, _, _, rfl, ⟨_, bs, _, _, rfl, ⟨rfl, rfl, rfl⟩, ⟨hb, rfl⟩, rfl⟩, ⟨_, ⟨_, t, _, _, rfl, ⟨⟨b, rfl, hb'⟩, rfl⟩, ⟨ht, ht', rfl⟩, rfl⟩, rfl⟩, rfl⟩, ⟨hb2, rfl⟩, rfl⟩, ⟨rfl, rfl⟩, rfl⟩
    exact ⟨rfl, bs, bs', b, t, hb, hb2, hb', ht, ht', by simp, rfl⟩
  · rintro ⟨rfl, bs, bs', b, t, hb, hb2, hb', ht, ht', rfl, rfl⟩
    exact ⟨_, _, [(1, b :: t)], [], rfl, ⟨bs ++ (b :: t), bs', [(1, b :: t)], [], by simp, ⟨bs, b :: t, [], [(1, b :: t)], by simp, ⟨[], bs, [], [], rfl, ⟨rfl, rfl, rfl⟩, ⟨hb, rfl⟩, rfl⟩, ⟨[], ⟨[b], t, [], [], rfl, ⟨⟨b, rfl, hb'⟩, rfl⟩, ⟨ht, ht', rfl⟩, rfl⟩, rfl⟩, rfl⟩, ⟨hb2, rfl⟩, rfl⟩, ⟨rfl, rfl⟩, rfl⟩

theorem getAssignmentDef_only {line l : Str} (h : getAssignmentDef line = some l) : AssignsOnly line l := by
  unfold getAssignmentDef at h
  rw [Option.map_eq_some_iff] at h
  obtain ⟨m, hm, hg⟩ := h
  obtain ⟨-, bs, bs', c, t, h1, h2, h3, h4, h5, h6, h7⟩ := lang_assignmentDef.1 (fullMatch_mem hm).1
  have : c :: t = l := by rw [← hg]; unfold Match.get; rw [h7]; rfl
  subst this
  exact ⟨bs, bs', c, t, blanks_iff.1 h1, blanks_iff.1 h2, rfl, symStartD_iff.1 h3, h4, fun d hd => symChar_iff.1 (h5 d hd), h6⟩

theorem assignsOnly_unique {line l l' : Str} (h : AssignsOnly line l) (h' : AssignsOnly line l') : l = l' := by
  obtain ⟨bs, bs', c, t, h1, h2, rfl, h3, h4, h5, e⟩ := h
  obtain ⟨as, as', d, u, g1, g2, rfl, g3, g4, g5, e'⟩ := h'
  have e2 : bs ++ c :: (t ++ (bs' ++ b! "=")) = as ++ d :: (u ++ (as' ++ b! "=")) := by
    rw [e] at e'; simpa using e'
  have nb : ∀ x : Byte, (SymbolStart x ∨ x = c! '$') → isH x = false := by
    intro x hx
    exact blank_not (P := symStartD) (by decide) (by decide) (symStartD_iff.2 hx)
  obtain ⟨-, rfl, e3⟩ := run_unique (P := isH) (blanks_iff.2 h1) (blanks_iff.2 g1) (nb c h3) (nb d g3) e2
  have tail : ∀ bs : Str, Blanks bs → ∃ y r, bs ++ b! "=" = y :: r ∧ symChar y = false := by
    intro bs hb
    cases bs with
    | nil => exact ⟨_, _, rfl, by decide⟩
    | cons y bs =>
      refine ⟨y, _, rfl, ?_⟩
      rcases hb y (by simp) with rfl | rfl <;> decide
  obtain ⟨y, r, ey, hy⟩ := tail bs' h2
  obtain ⟨y', r', ey', hy'⟩ := tail as' g2
  rw [ey, ey'] at e3
  rw [(run_unique (P := symChar) (fun d hd => symChar_iff.2 (h5 d hd)) (fun d hd => symChar_iff.2 (g5 d hd)) hy hy' e3).1]

theorem getAssignmentDef_iff (line l : Str) : getAssignmentDef line = some l ↔ AssignsOnly line l := by
  refine ⟨getAssignmentDef_only, fun h => ?_⟩
  have hs : (assignmentDef.fullMatch line).isSome = true := by
    rw [fullMatch_isSome]
    obtain ⟨bs, bs', c, t, h1, h2, rfl, h3, h4, h5, e⟩ := h
    exact ⟨_, lang_assignmentDef.2 ⟨rfl, bs, bs', c, t, blanks_iff.2 h1, blanks_iff.2 h2, symStartD_iff.2 h3, h4,
      fun d hd => symChar_iff.2 (h5 d hd), e, rfl⟩⟩
  obtain ⟨m, hm⟩ := Option.isSome_iff_exists.1 hs
  have hg : getAssignmentDef line = some (m.get 1) := by unfold getAssignmentDef; rw [hm]; rfl
  rw [hg, assignsOnly_unique h (getAssignmentDef_only hg)]

theorem lang_cudaBeginDef {p w rest cs} : Lang cudaBeginDef p w rest cs ↔ rest = [] ∧ ∃ kind bs ret c t,
    kind ∈ [b! "entry", b! "func"] ∧ bs ≠ [] ∧ (∀ d ∈ bs, isH d = true) ∧
    (ret = [] ∨ ∃ x bs', ret = b! "(" ++ x ++ b! ")" ++ bs' ∧ (∀ d ∈ x, (d != c! ')') = true) ∧ (∀ d ∈ bs', isH d = true)) ∧
    symStartD c = true ∧ (∀ d ∈ t, symChar d = true) ∧
    w = b! "." ++ kind ++ bs ++ ret ++ (c :: t) ++ b! "(" ∧ cs = [(2, c :: t), (1, kind)] := by
  show Lang (.seq (.seq (.seq (.seq (.seq (.seq (chr _) (.grp 1 _)) hs1) (opt (.seq (.seq (.seq (chr _) (many (.cls _))) (chr _)) hs)))
    (.grp 2 (.seq (.cls _) (many (.cls _))))) (chr _)) .eol) p w rest cs ↔ _
  simp only [lang_seq, lang_grp, lang_cls, lang_many_cls, lang_hs, lang_hs1, lang_chr, lang_oneOf, lang_opt, lang_eol]
  constructor
  · rintro ⟨_, _, _, _, rfl, ⟨_, _, _, _, rfl, ⟨_, _, _, _, rfl, ⟨_, ret, _, _, rfl, ⟨_, bs, _, _, rfl, ⟨_, kind, _, _, rfl, ⟨rfl, rfl⟩,
      ⟨_, ⟨hk, rfl⟩, rfl⟩, rfl⟩, ⟨hb, hb', rfl⟩, rfl⟩, hret, rfl⟩, ⟨_, ⟨_, t, _, _, rfl, ⟨⟨c, rfl, hc⟩, rfl⟩, ⟨ht, rfl⟩, rfl⟩, rfl⟩, rfl⟩, ⟨rfl, rfl⟩, rfl⟩, ⟨rfl, rfl, rfl⟩, rfl⟩
    refine ⟨rfl, kind, bs, ret, c, t, hk, hb, hb', ?_, hc, ht, by simp, ?_⟩
    · rcases hret with ⟨_, bs', _, _, rfl, ⟨_, _, _, _, rfl, ⟨_, x, _, _, rfl, ⟨rfl, rfl⟩, ⟨hx, rfl⟩, rfl⟩, ⟨rfl, rfl⟩, rfl⟩, ⟨hb2, rfl⟩, rfl⟩ | ⟨rfl, rfl⟩
      · exact .inr ⟨x, bs', rfl, hx, hb2⟩
      · exact .inl rfl
    · rcases hret with ⟨_, bs', _, _, rfl, ⟨_, _, _, _, rfl, ⟨_, x, _, _, rfl, ⟨rfl, rfl⟩, ⟨hx, rfl⟩, rfl⟩, ⟨rfl, rfl⟩, rfl⟩, ⟨hb2, rfl⟩, rfl⟩ | ⟨rfl, rfl⟩
      · rfl
      · rfl
  · rintro ⟨rfl, kind, bs, ret, c, t, hk, hb, hb', hret, hc, ht, rfl, rfl⟩
    refine ⟨_, [], [(2, c :: t), (1, kind)], [], (List.append_nil _).symm, ⟨_, _, [(2, c :: t), (1, kind)], [], rfl, ⟨_, c :: t, [(1, kind)], [(2, c :: t)], rfl, ⟨_, ret, [(1, kind)], [], rfl, ⟨_, bs, [(1, kind)], [], rfl, ⟨_, kind, [], [(1, kind)], rfl, ⟨rfl, rfl⟩,
      ⟨[], ⟨hk, rfl⟩, rfl⟩, rfl⟩, ⟨hb, hb', rfl⟩, rfl⟩, ?_, rfl⟩, ⟨[], ⟨[c], t, [], [], rfl, ⟨⟨c, rfl, hc⟩, rfl⟩, ⟨ht, rfl⟩, rfl⟩, rfl⟩, rfl⟩, ⟨rfl, rfl⟩, rfl⟩, ⟨rfl, rfl, rfl⟩, rfl⟩
    rcases hret with rfl | ⟨x, bs', rfl, hx, hb2⟩
    · exact .inr ⟨rfl, rfl⟩
    · exact .inl ⟨_, bs', [], [], rfl, ⟨_, _, [], [], rfl, ⟨_, x, [], [], rfl, ⟨rfl, rfl⟩, ⟨hx, rfl⟩, rfl⟩, ⟨rfl, rfl⟩, rfl⟩, ⟨hb2, rfl⟩, rfl⟩

theorem getCudaLabel_header {line l : Str} (h : getCudaLabel line = some l) : CudaHeader line l := by
  unfold getCudaLabel at h
  rw [Option.map_eq_some_iff] at h
  obtain ⟨m, hm, hg⟩ := h
  obtain ⟨u, w, rest, h1, h2, h3, h4, -⟩ := search_mem hm
  obtain ⟨rfl, kind, bs, ret, c, t, g1, g2, g3, g4, g5, g6, rfl, g8⟩ := lang_cudaBeginDef.1 h4
  have : kind = l := by rw [← hg]; unfold Match.get; rw [g8]; rfl
  subst this
  refine ⟨u, bs, ret, c, t, g1, g2, blanks_iff.1 g3, ?_, symStartD_iff.1 g5, fun d hd => symChar_iff.1 (g6 d hd), by rw [h1]; simp⟩
  rcases g4 with rfl | ⟨x, bs', rfl, hx, hb⟩
  · exact .inl rfl
  · exact .inr ⟨x, bs', rfl, fun d hd => by simpa using hx d hd, blanks_iff.1 hb⟩

theorem getCudaLabel_isSome (line : Str) : (getCudaLabel line).isSome = true ↔ ∃ k, CudaHeader line k := by
  constructor
  · intro h
    obtain ⟨k, hk⟩ := Option.isSome_iff_exists.1 h
    exact ⟨k, getCudaLabel_header hk⟩
  · rintro ⟨kind, u, bs, ret, c, t, g1, g2, g3, g4, g5, g6, e⟩
    unfold getCudaLabel
    rw [Option.isSome_map, search_isSome]
    refine ⟨u, _, [], _, ?_, lang_cudaBeginDef.2 ⟨rfl, kind, bs, ret, c, t, g1, g2, blanks_iff.2 g3, ?_, symStartD_iff.2 g5,
      fun d hd => symChar_iff.2 (g6 d hd), rfl, rfl⟩⟩
    · rw [e]; simp
    · rcases g4 with rfl | ⟨x, bs', rfl, hx, hb⟩
      · exact .inl rfl
      · exact .inr ⟨x, bs', rfl, fun d hd => by simpa using hx d hd, blanks_iff.2 hb⟩

/-- What `getLabelFromLine` finds. -/
theorem getLabelFromLine_defines {line l : Str} {a c : Bool} (h : getLabelFromLine line = some (l, a, c)) :
    DefinesOrAssigns line l := by
  unfold getLabelFromLine at h
  split at h
  · rename_i l' hl
    cases h
    exact .inl ((getLabel_iff _ _).1 hl)
  · split at h
    · rename_i l' hl
      cases h
      exact .inr (.inl ((getLabelAssignment_iff _ _).1 hl))
    · split at h
      · rename_i l' hl
        cases h
        exact .inr (.inr (.inl ((getAssignmentDef_iff _ _).1 hl)))
      · split at h
        · rename_i l' hl
          cases h
          exact .inr (.inr (.inr (getCudaLabel_header hl)))
        · exact absurd h (by simp)

theorem getLabelFromLine_cuda {line l : Str} {a : Bool} (h : getLabelFromLine line = some (l, a, true)) : CudaHeader line l := by
  unfold getLabelFromLine at h
  split at h
  · cases h
  · split at h
    · cases h
    · split at h
      · cases h
      · split at h
        · rename_i l' hl
          cases h
          exact getCudaLabel_header hl
        · exact absurd h (by simp)

/-- A line from which no label is taken neither defines nor assigns one. -/
theorem getLabelFromLine_none {line : Str} (h : getLabelFromLine line = none) (l : Str) : ¬ DefinesOrAssigns line l := by
  unfold getLabelFromLine at h
  split at h
  · exact absurd h (by simp)
  · rename_i h1
    split at h
    · exact absurd h (by simp)
    · rename_i h2
      split at h
      · exact absurd h (by simp)
      · rename_i h3
        split at h
        · exact absurd h (by simp)
        · rename_i h4
          rintro (hl | hl | hl | hl)
          · rw [(getLabel_iff _ _).2 hl] at h1; exact absurd h1 (by simp)
          · rw [(getLabelAssignment_iff _ _).2 hl] at h2; exact absurd h2 (by simp)
          · rw [(getAssignmentDef_iff _ _).2 hl] at h3; exact absurd h3 (by simp)
          · have := (getCudaLabel_isSome line).2 ⟨l, hl⟩
            rw [h4] at this
            exact absurd this (by simp)

theorem definesOrAssigns_contains {line l : Str} (h : DefinesOrAssigns line l) : Contains line l ∧ l ≠ [] := by
  rcases h with ⟨hne, -, h | h⟩ | ⟨c, t, bs, r, rfl, -, -, -, -, rfl⟩ | ⟨bs, bs', c, t, -, -, rfl, -, -, -, rfl⟩ |
    ⟨a, bs, ret, c, t, hk, -, -, -, -, -, rfl⟩
  · obtain ⟨r, rfl⟩ := h
    exact ⟨⟨[], c! ':' :: r, by simp⟩, hne⟩
  · obtain ⟨x, bs, r, rfl, -⟩ := h
    exact ⟨⟨x :: b! "proc" ++ bs, c! ':' :: r, by simp⟩, hne⟩
  · exact ⟨⟨[], bs ++ c! '=' :: r, by simp⟩, by simp⟩
  · exact ⟨⟨bs, bs' ++ b! "=", by simp⟩, by simp⟩
  · refine ⟨⟨a ++ b! ".", bs ++ ret ++ (c :: t) ++ b! "(", by simp⟩, ?_⟩
    rintro rfl
    simp at hk

/-! ### Source directives -/

/-- The matches of `a` start with an ordinary character. -/
def StartsOk (a : Re) : Prop := ∀ p w rest cs, Lang a p w rest cs → ∃ c t, w = c :: t ∧ ¬ Blank c ∧ c ≠ c! '='

theorem startsOk_digits (n : Nat) : StartsOk (grp n digits) := by
  intro p w rest cs h
  change Lang (.grp n digits) p w rest cs at h
  rw [lang_grp] at h
  obtain ⟨_, h, -⟩ := h
  rw [lang_digits] at h
  obtain ⟨h1, h2, -⟩ := h
  cases w with
  | nil => exact absurd rfl h1
  | cons c t =>
    have := h2 c (by simp)
    refine ⟨c, t, rfl, ?_, ?_⟩
    · rintro (rfl | rfl) <;> exact absurd this (by decide)
    · rintro rfl; exact absurd this (by decide)

theorem startsOk_lit {c : Byte} {s : Str} (h : ¬ Blank c) (h' : c ≠ c! '=') : StartsOk (lit (c :: s)) := by
  intro p w rest cs hl
  rw [lang_lit] at hl
  exact ⟨c, s, hl.1, h, h'⟩

theorem startsOk_chr {c : Byte} (h : ¬ Blank c) (h' : c ≠ c! '=') : StartsOk (chr c) := by
  intro p w rest cs hl
  rw [lang_chr] at hl
  exact ⟨c, [], hl.1, h, h'⟩

/-- The matches of `r` start with the word `kw`, blanks and an ordinary character, after optional blanks. -/
def WordForm (kw : Str) (r : Re) : Prop := ∀ p w rest cs, Lang r p w rest cs → p = 0 ∧
  ∃ bs bs' c t, Blanks bs ∧ bs' ≠ [] ∧ Blanks bs' ∧ ¬ Blank c ∧ c ≠ c! '=' ∧ w = bs ++ kw ++ bs' ++ c :: t

theorem wordForm_base (kw : Str) {a : Re} (ha : StartsOk a) : WordForm kw (bol ++ hs ++ lit kw ++ hs1 ++ a) := by
  intro p w rest cs h
  change Lang (.seq (.seq (.seq (.seq .bol hs) (lit _)) hs1) a) p w rest cs at h
  simp only [lang_seq, lang_bol, lang_hs, lang_lit, lang_hs1] at h
  obtain ⟨_, w2, _, _, rfl, ⟨_, bs', _, _, rfl, ⟨_, _, _, _, rfl, ⟨_, bs, _, _, rfl, ⟨rfl, rfl, rfl⟩, ⟨hb, rfl⟩, rfl⟩, ⟨rfl, rfl⟩, rfl⟩, ⟨h1, h2, rfl⟩, rfl⟩, hw, -⟩ := h
  obtain ⟨c, t, rfl, h3, h4⟩ := ha _ _ _ _ hw
  exact ⟨rfl, bs, bs', c, t, blanks_iff.1 hb, h1, blanks_iff.1 h2, h3, h4, by simp⟩

theorem WordForm.seq {kw : Str} {a : Re} (h : WordForm kw a) (b : Re) : WordForm kw (a ++ b) := by
  intro p w rest cs hl
  change Lang (.seq a b) p w rest cs at hl
  rw [lang_seq] at hl
  obtain ⟨w1, w2, _, _, rfl, h1, -, -⟩ := hl
  obtain ⟨h0, bs, bs', c, t, g1, g2, g3, g4, g5, rfl⟩ := h _ _ _ _ h1
  exact ⟨h0, bs, bs', c, t ++ w2, g1, g2, g3, g4, g5, by simp⟩

theorem WordForm.full {kw : Str} {r : Re} (h : WordForm kw r) {line : Str} {m : Match} (hm : r.fullMatch line = some m) :
    ∃ bs bs' c t, Blanks bs ∧ bs' ≠ [] ∧ Blanks bs' ∧ ¬ Blank c ∧ c ≠ c! '=' ∧ line = bs ++ kw ++ bs' ++ c :: t :=
  (h _ _ _ _ (fullMatch_mem hm).1).2

theorem WordForm.search {kw : Str} {r : Re} (h : WordForm kw r) {line : Str} {m : Match} (hm : r.search line = some m) :
    ∃ bs bs' c t, Blanks bs ∧ bs' ≠ [] ∧ Blanks bs' ∧ ¬ Blank c ∧ c ≠ c! '=' ∧ line = bs ++ kw ++ bs' ++ c :: t := by
  obtain ⟨u, w, rest, h1, h2, h3, h4, -⟩ := search_mem hm
  obtain ⟨h0, bs, bs', c, t, g1, g2, g3, g4, g5, rfl⟩ := h _ _ _ _ h4
  have : u = [] := List.length_eq_zero_iff.1 (by omega)
  subst this
  exact ⟨bs, bs', c, t ++ rest, g1, g2, g3, g4, g5, by rw [h1]; simp⟩

theorem fileDef_form {line : Str} {d : Int × Str} (h : getFileDef line = some d) : SourceDirective line := by
  unfold getFileDef at h
  split at h
  · rename_i m hm
    obtain ⟨bs, bs', c, t, h1, h2, h3, h5, h6, h4⟩ := WordForm.full (kw := b! ".file") (((((((wordForm_base _ (startsOk_digits 1)).seq _).seq _).seq _).seq _).seq _).seq _) hm
    exact ⟨bs, _, bs', c, t, h1, by simp, h2, h3, h5, h6, h4⟩
  · exact absurd h (by simp)

theorem sourceRef_form {line : Str} (h : (getSourceRef line).1 ≠ 0) : SourceDirective line := by
  unfold getSourceRef at h
  split at h
  · rename_i m hm
    obtain ⟨bs, bs', c, t, h1, h2, h3, h5, h6, h4⟩ := WordForm.full (kw := b! ".loc") ((((wordForm_base _ (startsOk_digits 1)).seq _).seq _).seq _) hm
    exact ⟨bs, _, bs', c, t, h1, by simp, h2, h3, h5, h6, h4⟩
  · exact absurd rfl h

theorem stabs_form {line : Str} {d : Int × Int} (h : getSourceInfoFromStabs line = some d) : SourceDirective line := by
  unfold getSourceInfoFromStabs at h
  split at h
  · exact absurd h (by simp)
  · rename_i m hm
    obtain ⟨bs, bs', c, t, h1, h2, h3, h5, h6, h4⟩ := WordForm.search (kw := b! ".stabn") (((((wordForm_base _ (startsOk_digits 1)).seq _).seq _).seq _).seq _) hm
    exact ⟨bs, _, bs', c, t, h1, by simp, h2, h3, h5, h6, h4⟩

theorem dbg6502_form {line : Str} {d : Dbg6502} (h : get6502DbgInfo line = some d) : SourceDirective line := by
  unfold get6502DbgInfo at h
  split at h
  · rename_i m hm
    obtain ⟨bs, bs', c, t, h1, h2, h3, h5, h6, h4⟩ := WordForm.full (kw := b! ".dbg") (((((((wordForm_base _ (startsOk_lit (by decide) (by decide))).seq _).seq _).seq _).seq _).seq _).seq _) hm
    exact ⟨bs, _, bs', c, t, h1, by simp, h2, h3, h5, h6, h4⟩
  · split at h
    · rename_i hm
      obtain ⟨m, hm⟩ := Option.isSome_iff_exists.1 hm
      obtain ⟨bs, bs', c, t, h1, h2, h3, h5, h6, h4⟩ := WordForm.search (kw := b! ".dbg") (wordForm_base _ (startsOk_lit (by decide) (by decide))) hm
      exact ⟨bs, _, bs', c, t, h1, by simp, h2, h3, h5, h6, h4⟩
    · exact absurd h (by simp)

theorem d2Line_form {line : Str} {n : Int} (h : getD2LineInfo line = some n) : SourceDirective line := by
  unfold getD2LineInfo at h
  rw [Option.map_eq_some_iff] at h
  obtain ⟨m, hm, -⟩ := h
  obtain ⟨bs, bs', c, t, h1, h2, h3, h5, h6, h4⟩ := WordForm.full (kw := b! ".d2line") (((((wordForm_base _ (startsOk_digits 1)).seq _).seq _).seq _).seq _) hm
  exact ⟨bs, _, bs', c, t, h1, by simp, h2, h3, h5, h6, h4⟩

theorem d2File_form {line : Str} {n : Str} (h : getD2FileInfo line = some n) : SourceDirective line := by
  unfold getD2FileInfo at h
  rw [Option.map_eq_some_iff] at h
  obtain ⟨m, hm, -⟩ := h
  obtain ⟨bs, bs', c, t, h1, h2, h3, h5, h6, h4⟩ := WordForm.full (kw := b! ".d2file") (((wordForm_base _ (startsOk_chr (by decide) (by decide))).seq _).seq _) hm
  exact ⟨bs, _, bs', c, t, h1, by simp, h2, h3, h5, h6, h4⟩

theorem SourceDirective.directive {line : Str} (h : SourceDirective line) : Directive line := by
  obtain ⟨bs, kw, bs', c, r, h1, hk, -, -, -, -, rfl⟩ := h
  simp only [List.mem_cons, List.not_mem_nil, or_false] at hk
  refine ⟨bs, kw.tail ++ bs' ++ c :: r, h1, ?_⟩
  rcases hk with rfl | rfl | rfl | rfl | rfl | rfl <;> simp

/-- A maximal piece with a property is unique. -/
theorem span_unique {P : Byte → Prop} {a a' r r' : Str} {x x' : Byte} (h : ∀ c ∈ a, P c) (h' : ∀ c ∈ a', P c) (hx : ¬ P x) (hx' : ¬ P x')
    (e : a ++ x :: r = a' ++ x' :: r') : a = a' ∧ x = x' ∧ r = r' := by
  induction a generalizing a' with
  | nil =>
    cases a' with
    | nil => simpa using e
    | cons b a' =>
      rw [List.nil_append, List.cons_append, List.cons.injEq] at e
      exact absurd (h' b (by simp)) (e.1 ▸ hx)
  | cons b a ih =>
    cases a' with
    | nil =>
      rw [List.nil_append, List.cons_append, List.cons.injEq] at e
      exact absurd (h b (by simp)) (e.1 ▸ hx')
    | cons b' a' =>
      rw [List.cons_append, List.cons_append, List.cons.injEq] at e
      obtain ⟨h1, h2, h3⟩ := ih (fun d hd => h d (by simp [hd])) (fun d hd => h' d (by simp [hd])) e.2
      exact ⟨by rw [e.1, h1], h2, h3⟩

def sourceWords : List Str := [b! ".file", b! ".loc", b! ".stabn", b! ".dbg", b! ".d2line", b! ".d2file"]

theorem sourceWords_dot : ∀ kw ∈ sourceWords, ∃ t, kw = c! '.' :: t := by
  intro kw h
  simp only [sourceWords, List.mem_cons, List.not_mem_nil, or_false] at h
  rcases h with rfl | rfl | rfl | rfl | rfl | rfl <;> exact ⟨_, rfl⟩

theorem sourceWords_chars : ∀ kw ∈ sourceWords, ∀ c ∈ kw, SymbolChar c := by
  unfold sourceWords SymbolChar Letter Digit; decide

theorem symbolChar_not_blank {c : Byte} (h : SymbolChar c) : ¬ Blank c := by
  rintro (rfl | rfl)
  · exact absurd h (by unfold SymbolChar Letter Digit; decide)
  · exact absurd h (by unfold SymbolChar Letter Digit; decide)

theorem labelChar_not_blank {c : Byte} (h : LabelChar c) : ¬ Blank c := by
  rcases h with h | rfl
  · exact symbolChar_not_blank h
  · decide

/-- The first word of a source directive. -/
theorem sourceWord {line : Str} (h : SourceDirective line) {bs w : Str} {b : Byte} {r : Str} (hb : Blanks bs) (hw : w ≠ [])
    (hw' : ∀ c ∈ w, ¬ Blank c) (hbl : Blank b) (e : line = bs ++ w ++ b :: r) : w ∈ sourceWords ∧
      ∀ bs2 d r2, Blanks bs2 → ¬ Blank d → b :: r = bs2 ++ d :: r2 → d ≠ c! '=' := by
  obtain ⟨bs1, kw, bs', c, r1, h1, hk, h2, h3, h4, h5, h6⟩ := h
  obtain ⟨t, ht⟩ := sourceWords_dot kw hk
  cases w with
  | nil => exact absurd rfl hw
  | cons a w =>
    cases bs' with
    | nil => exact absurd rfl h2
    | cons b' bs' =>
      have e1 : bs ++ a :: (w ++ b :: r) = bs1 ++ c! '.' :: (t ++ (b' :: bs') ++ c :: r1) := by
        rw [h6, ht] at e
        simpa using e.symm
      obtain ⟨rfl, rfl, e2⟩ := span_unique (P := Blank) hb h1 (hw' a (by simp)) (by decide) e1
      have e3 : (c! '.' :: w) ++ b :: r = kw ++ b' :: (bs' ++ c :: r1) := by
        rw [ht, List.cons_append, e2]; simp
      obtain ⟨e4, rfl, e5⟩ := span_unique (P := fun c => ¬ Blank c) hw' (fun d hd => symbolChar_not_blank (sourceWords_chars kw hk d hd))
        (by simpa using hbl) (by simpa using h3 b' (by simp)) e3
      refine ⟨e4 ▸ hk, fun bs2 d r2 g1 g2 g3 => ?_⟩
      rw [e5, ← List.cons_append] at g3
      obtain ⟨-, rfl, -⟩ := span_unique (P := Blank) h3 g1 h4 g2 g3
      exact h5

/-- A source directive is no label definition, except perhaps a CUDA header. -/
theorem SourceDirective.not_label {line : Str} (h : SourceDirective line) {l : Str} (hd : DefinesOrAssigns line l) : CudaHeader line l := by
  rcases hd with ⟨h1, h2, ⟨r, e⟩ | ⟨x, bs, r, e, h3, h4⟩⟩ | ⟨c, t, bs, r, rfl, h1, h2, h3, h4, e⟩ | ⟨bs, bs', c, t, h1, h2, rfl, h3, -, h5, e⟩ | hd
  · exfalso
    obtain ⟨bs1, kw, bs', c, r1, g1, hk, g2, g3, g4, g5, g6⟩ := h
    cases bs' with
    | nil => exact absurd rfl g2
    | cons b' bs' =>
      cases bs1 with
      | nil =>
        have e1 : l ++ c! ':' :: r = kw ++ b' :: (bs' ++ c :: r1) := by rw [← e, g6]; simp
        obtain ⟨-, e2, -⟩ := span_unique (P := LabelChar) h2 (fun d hd => .inl (sourceWords_chars kw hk d hd))
          (by unfold LabelChar SymbolChar Letter Digit; decide) (fun h => labelChar_not_blank h (g3 b' (by simp))) e1
        have := g3 b' (by simp)
        rw [← e2] at this
        exact absurd this (by decide)
      | cons b bs1 =>
        cases l with
        | nil => exact absurd rfl h1
        | cons a l =>
          rw [g6] at e
          simp only [List.cons_append, List.cons.injEq] at e
          exact labelChar_not_blank (h2 a (by simp)) (e.1 ▸ g1 b (by simp))
  · exfalso
    cases bs with
    | nil => exact absurd rfl h3
    | cons b bs =>
      by_cases hx : Blank x
      · have := (sourceWord h (bs := [x]) (w := b! "proc") (b := b) (r := bs ++ l ++ c! ':' :: r) (by intro c hc; simp at hc; exact hc ▸ hx)
          (by simp) (by decide) (h4 b (by simp)) (by rw [e]; simp)).1
        exact absurd this (by decide)
      · have := (sourceWord h (bs := []) (w := x :: b! "proc") (b := b) (r := bs ++ l ++ c! ':' :: r) (by intro c hc; simp at hc)
          (by simp) (by
            intro c hc
            rcases List.mem_cons.1 hc with rfl | hc
            · exact hx
            · exact (by decide : ∀ c ∈ b! "proc", ¬ Blank c) c hc) (h4 b (by simp)) (by rw [e]; simp)).1
        simp [sourceWords] at this
  · exfalso
    cases bs with
    | nil => exact absurd rfl h3
    | cons b bs =>
      have hsym : ∀ d ∈ c :: t, SymbolChar d := by
        intro d hd
        rcases List.mem_cons.1 hd with rfl | hd
        · exact h1
        · rcases h2 d hd with h | h | h
          · exact .inl h
          · exact .inr (.inl h)
          · exact .inr (.inr (.inl h))
      have := (sourceWord h (bs := []) (w := c :: t) (b := b) (r := bs ++ c! '=' :: r) (by intro c hc; simp at hc) (by simp)
        (fun d hd => symbolChar_not_blank (hsym d hd)) (h4 b (by simp)) (by rw [e]; simp)).2 (b :: bs) c! '=' r h4 (by decide) (by simp)
      exact this rfl
  · exfalso
    have hsym : ∀ d ∈ c :: t, SymbolChar d := by
      intro d hd
      rcases List.mem_cons.1 hd with rfl | hd
      · rcases h3 with (h3 | h3 | h3) | h3
        · exact .inl h3
        · exact .inr (.inr (.inl h3))
        · exact .inr (.inr (.inr (.inl h3)))
        · exact .inr (.inr (.inr (.inr h3)))
      · exact h5 d hd
    cases bs' with
    | nil =>
      obtain ⟨bs1, kw, bs2, c2, r1, g1, hk, g2, g3, g4, g5, g6⟩ := h
      obtain ⟨t2, ht⟩ := sourceWords_dot kw hk
      cases bs2 with
      | nil => exact absurd rfl g2
      | cons b' bs2 =>
        have e1 : bs ++ c :: (t ++ b! "=") = bs1 ++ c! '.' :: (t2 ++ (b' :: bs2) ++ c2 :: r1) := by
          rw [g6, ht] at e
          simpa using e.symm
        obtain ⟨rfl, rfl, e2⟩ := span_unique (P := Blank) h1 g1 (symbolChar_not_blank (hsym c (by simp))) (by decide) e1
        have e3 : (c! '.' :: t) ++ c! '=' :: [] = kw ++ b' :: (bs2 ++ c2 :: r1) := by
          rw [ht, List.cons_append, e2]; simp
        obtain ⟨-, e4, -⟩ := span_unique (P := SymbolChar) hsym (sourceWords_chars kw hk) (by unfold SymbolChar Letter Digit; decide)
          (fun h => symbolChar_not_blank h (g3 b' (by simp))) e3
        have := g3 b' (by simp)
        rw [← e4] at this
        exact absurd this (by decide)
    | cons b bs' =>
      have := (sourceWord h (bs := bs) (w := c :: t) (b := b) (r := bs' ++ b! "=") h1 (by simp)
        (fun d hd => symbolChar_not_blank (hsym d hd)) (h2 b (by simp)) (by rw [e]; simp)).2 (b :: bs') c! '=' [] h2 (by decide) (by simp)
      exact this rfl
  · exact hd

theorem dataDirectives_dot : ∀ kw ∈ dataDirectives, ∃ t, kw = c! '.' :: t := by
  intro kw h
  simp only [dataDirectives, List.mem_cons, List.not_mem_nil, or_false] at h
  rcases h with rfl | rfl | rfl | rfl | rfl | rfl | rfl | rfl | rfl | rfl | rfl | rfl | rfl | rfl | rfl | rfl | rfl | rfl | rfl | rfl <;>
    exact ⟨_, rfl⟩

theorem SourceDirective.not_data {line : Str} (h : SourceDirective line) : ¬ StartsWithOneOf dataDirectives line := by
  rintro ⟨bs, dk, r, h1, hd, e⟩
  obtain ⟨bs1, kw, bs', c, r1, g1, hk, g2, g3, g4, g5, g6⟩ := h
  obtain ⟨t, ht⟩ := dataDirectives_dot dk hd
  obtain ⟨t', ht'⟩ := sourceWords_dot kw hk
  have e1 : bs ++ c! '.' :: (t ++ r) = bs1 ++ c! '.' :: (t' ++ bs' ++ c :: r1) := by
    rw [g6, ht, ht'] at e
    simpa using e.symm
  obtain ⟨-, -, e2⟩ := span_unique (P := Blank) h1 g1 (by decide) (by decide) e1
  have e3 : dk ++ r = kw ++ (bs' ++ c :: r1) := by
    rw [ht, ht', List.cons_append, e2]; simp
  have e4 : dk.take 4 = kw.take 4 := by
    have := congrArg (List.take 4) e3
    have k1 : ∀ x ∈ dataDirectives, 4 ≤ x.length := by decide
    have k2 : ∀ x ∈ sourceWords, 4 ≤ x.length := by decide
    rwa [List.take_append_of_le_length (k1 dk hd), List.take_append_of_le_length (k2 kw hk)] at this
  have : ∀ x ∈ dataDirectives, ∀ y ∈ sourceWords, x.take 4 ≠ y.take 4 := by decide
  exact this dk hd kw hk e4

end AsmParser
