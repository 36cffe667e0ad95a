/-
Helper lemmas: which function names binary mode ignores.
-/
import Verif.Proofs.RegexLemmas
import Verif.Proofs.ObjLines
import Verif.Spec.Names

namespace AsmParser
open Re Regexes

theorem binaryIgnore_iff (n : Str) : (binaryIgnoreFunction.search n).isSome = true ↔
    b! "__" <+: n ∨ b! ".plt" <+: n ∨ n ∈ startupNames := by
  unfold binaryIgnoreFunction
  simp only [app_eq_seq]
  have assoc : ∀ a b c : Re, ∀ p w rest cs, Lang (.seq (.seq a b) c) p w rest cs ↔ Lang (.seq a (.seq b c)) p w rest cs := by
    intro a b c p w rest cs
    simp only [lang_seq]
    constructor
    · rintro ⟨w1, w2, c1, c2, rfl, ⟨w3, w4, c3, c4, rfl, h1, h2, rfl⟩, h3, rfl⟩
      exact ⟨w3, w4 ++ w2, c3, c2 ++ c4, by simp, by simpa using h1, ⟨w4, w2, c4, c2, rfl, h2, by
        have : p + (w3 ++ w4).length = p + w3.length + w4.length := by simp; omega
        rw [← this]; exact h3, rfl⟩, by simp⟩
    · rintro ⟨w1, w2, c1, c2, rfl, h1, ⟨w3, w4, c3, c4, rfl, h2, h3, rfl⟩, rfl⟩
      exact ⟨w1 ++ w3, w4, c3 ++ c1, c4, by simp, ⟨w1, w3, c1, c3, rfl, by simpa using h1, h2, rfl⟩, by
        have : p + (w1 ++ w3).length = p + w1.length + w3.length := by simp; omega
        rw [this]; exact h3, by simp⟩
  rw [search_isSome]
  simp only [assoc]
  rw [← search_isSome, search_bol_isSome]
  simp only [lang_seq, lang_grp, lang_alt, lang_lit, lang_many_any, lang_eol, lang_chr, lang_oneOf, lang_opt]
  constructor
  · rintro ⟨w, rest, cs, rfl, w1, w2, c1, c2, rfl, ⟨c, h, -⟩, ⟨rfl, rfl, -⟩, -⟩
    simp only [List.append_nil]
    rcases h with ⟨a, b, _, _, rfl, ⟨rfl, -⟩, -, -⟩ | ⟨a, b, _, _, rfl, ⟨rfl, -⟩, ⟨_, ⟨h, -⟩, -⟩, -⟩ |
      ⟨a, b, _, _, rfl, h, ⟨rfl, -⟩, -⟩ | ⟨rfl, -⟩ | ⟨rfl, -⟩ | ⟨a, b, _, _, rfl, ⟨rfl, -⟩, -, -⟩ | ⟨rfl, -⟩
    · exact .inl ⟨b, rfl⟩
    · refine .inr (.inr ?_)
      simp only [List.mem_cons, List.not_mem_nil, or_false] at h
      rcases h with rfl | rfl | rfl <;> decide
    · refine .inr (.inr ?_)
      rcases h with ⟨_, ⟨rfl, -⟩, -⟩ | ⟨rfl, -⟩ <;> decide
    · exact .inr (.inr (by decide))
    · exact .inr (.inr (by decide))
    · exact .inr (.inl ⟨b, rfl⟩)
    · exact .inr (.inr (by decide))
  · have mk : ∀ cs, (∃ c, Lang (alt (lit b! "__" ++ many any) <|
     alt (chr c! '_' ++ grp 2 (oneOf [b! "init", b! "start", b! "fini"])) <|
     alt (opt (grp 3 (lit b! "de")) ++ lit b! "register_tm_clones") <|
     alt (lit b! "call_gmon_start") <| alt (lit b! "frame_dummy") <|
     alt (lit b! ".plt" ++ many any) (lit b! "_dl_relocate_static_pie")) 0 n [] c ∧ cs = (1, n) :: c) →
      ∃ w rest cs, n = w ++ rest ∧ ∃ w1 w2 c1 c2, w = w1 ++ w2 ∧ (∃ c, Lang (alt (lit b! "__" ++ many any) <|
     alt (chr c! '_' ++ grp 2 (oneOf [b! "init", b! "start", b! "fini"])) <|
     alt (opt (grp 3 (lit b! "de")) ++ lit b! "register_tm_clones") <|
     alt (lit b! "call_gmon_start") <| alt (lit b! "frame_dummy") <|
     alt (lit b! ".plt" ++ many any) (lit b! "_dl_relocate_static_pie")) 0 w1 (w2 ++ rest) c ∧ c1 = (1, w1) :: c) ∧ (w2 = [] ∧ rest = [] ∧ c2 = []) ∧ cs = c2 ++ c1 := by
      rintro cs ⟨c, h, e⟩
      exact ⟨n, [], cs, by simp, n, [], cs, [], by simp, ⟨c, by simpa using h, e⟩, ⟨rfl, rfl, rfl⟩, by simp⟩
    simp only [app_eq_seq, lang_seq, lang_grp, lang_alt, lang_lit, lang_many_any, lang_chr, lang_oneOf, lang_opt] at mk
    rintro (⟨t, rfl⟩ | ⟨t, rfl⟩ | h)
    · exact mk _ ⟨[], .inl ⟨_, t, _, _, rfl, ⟨rfl, rfl⟩, rfl, rfl⟩, rfl⟩
    · exact mk _ ⟨[], .inr (.inr (.inr (.inr (.inr (.inl ⟨_, t, _, _, rfl, ⟨rfl, rfl⟩, rfl, rfl⟩))))), rfl⟩
    · simp only [startupNames, List.mem_cons, List.not_mem_nil, or_false] at h
      rcases h with rfl | rfl | rfl | rfl | rfl | rfl | rfl | rfl
      · exact mk _ ⟨[(2, _)], .inr (.inl ⟨_, b! "init", _, _, rfl, ⟨rfl, rfl⟩, ⟨_, ⟨by simp, rfl⟩, rfl⟩, rfl⟩), rfl⟩
      · exact mk _ ⟨[(2, _)], .inr (.inl ⟨_, b! "start", _, _, rfl, ⟨rfl, rfl⟩, ⟨_, ⟨by simp, rfl⟩, rfl⟩, rfl⟩), rfl⟩
      · exact mk _ ⟨[(2, _)], .inr (.inl ⟨_, b! "fini", _, _, rfl, ⟨rfl, rfl⟩, ⟨_, ⟨by simp, rfl⟩, rfl⟩, rfl⟩), rfl⟩
      · exact mk _ ⟨[], .inr (.inr (.inl ⟨[], _, [], [], rfl, .inr ⟨rfl, rfl⟩, ⟨rfl, rfl⟩, rfl⟩)), rfl⟩
      · exact mk _ ⟨_, .inr (.inr (.inl ⟨b! "de", b! "register_tm_clones", _, _, rfl, .inl ⟨_, ⟨rfl, rfl⟩, rfl⟩, ⟨rfl, rfl⟩, rfl⟩)), rfl⟩
      · exact mk _ ⟨[], .inr (.inr (.inr (.inl ⟨rfl, rfl⟩))), rfl⟩
      · exact mk _ ⟨[], .inr (.inr (.inr (.inr (.inl ⟨rfl, rfl⟩)))), rfl⟩
      · exact mk _ ⟨[], .inr (.inr (.inr (.inr (.inr (.inr ⟨rfl, rfl⟩))))), rfl⟩

theorem pltFunction_iff (n : Str) : (pltFunction.search n).isSome = true ↔
    ∃ a b, n = a ++ b! "@plt" ++ b ∧ ∀ c ∈ b, c = c! '-' ∨ isAlpha c = true ∨ isDigit c = true := by
  unfold pltFunction
  rw [search_isSome]
  simp only [app_eq_seq, lang_seq, lang_grp, lang_lit, lang_many_any, lang_eol, lang_bol, lang_many_cls]
  constructor
  · rintro ⟨u, w, rest, cs, rfl, w1, w2, c1, c2, rfl, ⟨w3, w4, c3, c4, rfl, ⟨rfl, hu, -⟩, ⟨c, h, -⟩, -⟩,
      ⟨rfl, rfl, -⟩, -⟩
    have hu : u = [] := by simpa using hu
    subst hu
    obtain ⟨a, b, _, _, rfl, ⟨a1, a2, _, _, rfl, -, ⟨rfl, -⟩, -⟩, ⟨h, -⟩, -⟩ := h
    refine ⟨a1, b, by simp, ?_⟩
    intro c hc
    have := h c hc
    simp only [Bool.or_eq_true, beq_iff_eq] at this
    rcases this with ((h | h) | h) | h
    · exact .inl h
    · subst h; exact .inr (.inl (by decide))
    · exact .inr (.inl h)
    · exact .inr (.inr h)
  · rintro ⟨a, b, rfl, h⟩
    refine ⟨[], a ++ b! "@plt" ++ b, [], _, by simp, a ++ b! "@plt" ++ b, [], _, [], by simp,
      ⟨[], a ++ b! "@plt" ++ b, [], _, by simp, ⟨rfl, rfl, rfl⟩,
        ⟨[], ⟨a ++ b! "@plt", b, [], [], by simp, ⟨a, b! "@plt", [], [], by simp, rfl, ⟨rfl, rfl⟩, rfl⟩,
          ⟨?_, rfl⟩, rfl⟩, rfl⟩, rfl⟩, ⟨rfl, rfl, rfl⟩, rfl⟩
    intro c hc
    rcases h c hc with h | h | h <;> simp [h]

/-- The ignore test is the plain predicate on names. -/
theorem shouldIgnore_iff (n : Str) (f : Filter) : shouldIgnoreFunction n f = true ↔ IgnoredName f.plt n := by
  unfold shouldIgnoreFunction IgnoredName
  cases hb : (binaryIgnoreFunction.search n).isSome
  · have hb' : ¬ (b! "__" <+: n ∨ b! ".plt" <+: n ∨ n ∈ startupNames) := by
      rw [← binaryIgnore_iff, hb]; simp
    have : ∀ x : Prop, (b! "__" <+: n ∨ b! ".plt" <+: n ∨ n ∈ startupNames ∨ x) ↔ x := by
      intro x
      constructor
      · rintro (h | h | h | h)
        · exact absurd (.inl h) hb'
        · exact absurd (.inr (.inl h)) hb'
        · exact absurd (.inr (.inr h)) hb'
        · exact h
      · exact fun h => .inr (.inr (.inr h))
    rw [this]
    cases hp : f.plt
    · simp
    · simp only [Bool.false_eq_true, ↓reduceIte, Bool.or_eq_true, pltFunction_iff, endsWith,
        List.isSuffixOf_iff_suffix, true_and]
      constructor
      · rintro ((⟨t, rfl⟩ | ⟨t, rfl⟩) | ⟨a, b, rfl, h⟩)
        · exact ⟨t, [], by simp, .inr (by simp)⟩
        · exact ⟨t, b! ">", by simp, .inl rfl⟩
        · exact ⟨a, b, rfl, .inr h⟩
      · rintro ⟨a, b, rfl, rfl | h⟩
        · exact .inl (.inr ⟨a, by simp⟩)
        · exact .inr ⟨a, b, rfl, h⟩
  · have := (binaryIgnore_iff n).1 hb
    simp only [↓reduceIte, true_iff]
    rcases this with h | h | h
    · exact .inl h
    · exact .inr (.inl h)
    · exact .inr (.inr (.inl h))

theorem shouldIgnore_false (n : Str) (f : Filter) : shouldIgnoreFunction n f = false ↔ ¬ IgnoredName f.plt n := by
  rw [← shouldIgnore_iff]; simp

/-! ### Label lines and references -/

/-- No kept label or reference has an ignored name. -/
structure NameInv (f : Filter) (p : OParser) : Prop where
  refs : ∀ r ∈ p.st.currentLine.labels, shouldIgnoreFunction r.name f = false
  labels : ∀ l ∈ p.lines, l.isLabel = true → shouldIgnoreFunction l.label f = false
  lines : ∀ l ∈ p.lines, ∀ r ∈ l.labels, shouldIgnoreFunction r.name f = false
  table : ∀ d ∈ p.labels, shouldIgnoreFunction d.1 f = false

theorem refLabels_ok {L : Locale} {f : Filter} {s : OState}
    (h : ∀ r ∈ s.currentLine.labels, shouldIgnoreFunction r.name f = false) :
    ∀ r ∈ refLabels L f s, shouldIgnoreFunction r.name f = false := by
  unfold refLabels
  split
  · exact h
  · rename_i hc
    simp only [Bool.or_eq_true, not_or] at hc
    intro r hr
    simp only [List.mem_append, List.mem_singleton] at hr
    rcases hr with hr | rfl
    · exact h r hr
    · exact Bool.eq_false_of_ne hc.2

theorem NameInv.step {L : Locale} {f : Filter} {s : OState} {c : Byte}
    (h : ∀ r ∈ s.currentLine.labels, shouldIgnoreFunction r.name f = false) :
    ∀ r ∈ (s.step L f c).currentLine.labels, shouldIgnoreFunction r.name f = false := by
  refine step_cases (P := fun s => ∀ r ∈ s.currentLine.labels, shouldIgnoreFunction r.name f = false)
    ?_ ?_ ?_ ?_ ?_ ?_ ?_ ?_ ?_ ?_ ?_ ?_ ?_ ?_ ?_ ?_ ?_ ?_ ?_ ?_ ?_ ?_
  case refine_22 => intros; rename_i r hr; exact refLabels_ok h r hr
  all_goals intros; rename_i r hr; exact h r hr

theorem prune_mem_labels {p : OParser} {d : LabelPair} (h : d ∈ p.prune.labels) : d ∈ p.labels := by
  revert h
  refine prune_cases (P := fun q => d ∈ q.labels → d ∈ p.labels) id ?_
  intro T n i _ hT _ h
  rw [hT]; exact List.mem_append_left _ h

theorem finishLine_names {s : OState} {r : AsmLabel} (h : r ∈ s.finishLine.labels) :
    ∃ r' ∈ s.currentLine.labels, r'.name = r.name := by
  unfold OState.finishLine at h
  by_cases hl : s.currentLine.isLabel = true
  · simp only [hl, ↓reduceIte] at h; exact ⟨r, h, rfl⟩
  · simp only [hl] at h
    simp only [Bool.false_eq_true, ↓reduceIte, List.mem_map] at h
    obtain ⟨r', h', rfl⟩ := h
    exact ⟨r', h', rfl⟩

theorem NameInv.parse (L : Locale) (f : Filter) (s : Str) : NameInv f (objParse L f s) := by
  refine objParse_induct' (P := NameInv f) ⟨by simp [start], by simp [start], by simp [start], by simp [start]⟩ ?_ s
  intro p c hm hf h hs
  refine feed_cases (P := NameInv f) hs h (fun _ => ?_) (fun _ _ _ => ⟨by rw [hf]; exact NameInv.step h.refs, h.labels, h.lines, h.table⟩)
  have rst : ∀ s : OState, ∀ r ∈ s.commonReset.currentLine.labels, shouldIgnoreFunction r.name f = false := by
    intro s r hr; simp [OState.commonReset] at hr
  refine eol_cases (P := NameInv f) ?_ ?_ ?_ ?_ ?_ ?_ ?_ ?_
  · intros; exact ⟨rst _, h.labels, h.lines, h.table⟩
  · intros; exact ⟨rst _, h.labels, h.lines, h.table⟩
  · intros
    refine ⟨rst _, ?_, ?_, h.table⟩
    · intro l hl
      simp only [List.mem_append, List.mem_singleton] at hl
      rcases hl with hl | rfl
      · exact h.labels l hl
      · simp [OState.finishLine, hm.notLabel]
    · intro l hl r hr
      simp only [List.mem_append, List.mem_singleton] at hl
      rcases hl with hl | rfl
      · exact h.lines l hl r hr
      · obtain ⟨r', h1, h2⟩ := finishLine_names hr
        rw [← h2]; exact h.refs r' h1
  · intros
    refine ⟨rst _, ?_, ?_, h.table⟩
    · intro l hl
      simp only [List.mem_append, List.mem_singleton] at hl
      rcases hl with hl | rfl
      · exact h.labels l hl
      · simp [markerLine]
    · intro l hl r hr
      simp only [List.mem_append, List.mem_singleton] at hl
      rcases hl with hl | rfl
      · exact h.lines l hl r hr
      · simp [markerLine] at hr
  · intros
    exact ⟨rst _, fun l hl => h.labels l (prune_mem hl), fun l hl => h.lines l (prune_mem hl),
      fun d hd => h.table d (prune_mem_labels hd)⟩
  · intro hl _ _ hsrc
    have := (hm.lbl hl).2.2.2.2.1
    rw [hsrc] at this; cases this
  · intro hl _ hi _ _
    refine ⟨rst _, ?_, ?_, ?_⟩
    · intro l hl
      simp only [List.mem_append, List.mem_singleton] at hl
      rcases hl with hl | rfl
      · exact h.labels l (prune_mem hl)
      · intro _; rw [← hf]; exact hi
    · intro l hl' r hr
      simp only [List.mem_append, List.mem_singleton] at hl'
      rcases hl' with hl' | rfl
      · exact h.lines l (prune_mem hl') r hr
      · exact h.refs r hr
    · intro d hd
      simp only [List.mem_append, List.mem_singleton] at hd
      rcases hd with hd | rfl
      · exact h.table d (prune_mem_labels hd)
      · rw [← hf]; exact hi
  · intro hl _ hi _ _
    refine ⟨rst _, ?_, ?_, ?_⟩
    · intro l hl
      simp only [List.mem_append, List.mem_singleton] at hl
      rcases hl with hl | rfl
      · exact h.labels l (prune_mem hl)
      · simp [markerLine]
    · intro l hl' r hr
      simp only [List.mem_append, List.mem_singleton] at hl'
      rcases hl' with hl' | rfl
      · exact h.lines l (prune_mem hl') r hr
      · simp [markerLine] at hr
    · intro d hd
      simp only [List.mem_append, List.mem_singleton] at hd
      rcases hd with hd | rfl
      · exact h.table d (prune_mem_labels hd)
      · rw [← hf]; exact hi

end AsmParser
