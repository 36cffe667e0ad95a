/-
Property C109: the assembly code that a compiler writes, with CR LF.
-/
import Verif.Props.Compiled
import Verif.Props.Crlf
import Verif.Props.JsonExact

namespace AsmParser

attribute [local irreducible] Re.search Re.fullMatch

/-- C109: of the assembly code that a compiler writes, with CR LF at the line ends, text mode shows exactly the labels, instructions and data,
in their order and unchanged but for tabs, each with its CR LF. -/
theorem C109_compiled (L : Locale) (f : Filter) (hf : UsualFilter f) (xs : List CLine) (hx : ∀ x ∈ xs, x.Wf)
    (hd : f.compatmode = true → ∀ x ∈ xs, x.shows = true → ¬ StartsWithOneOf dataDirectives x.text) (hn : NoCuda (unlines (xs.map CLine.render))) (p : TParser)
    (h : TextResult L f (crlf (xs.map CLine.render)) p) :
    p.outputText = crlf ((xs.filter CLine.shows).map CLine.text) := by
  have hcl : ∀ l, cleaned f l = expandTabs l := fun l => by unfold cleaned; rw [if_neg (by simp [hf.whitespace])]
  have hnl : ∀ l ∈ xs.map CLine.render, 10 ∉ l := by
    intro l hl
    obtain ⟨x, hm, rfl⟩ := List.mem_map.1 hl
    exact (hx x hm).usual.noNewline
  have vis : ∀ x ∈ xs, Visible f x.render ↔ x.shows = true := by
    intro x hm
    unfold Visible
    rw [hcl, only_comment (hx x hm).usual]
    show (_ → _) ∧ (_ → ¬ PlainDirective x.text) ↔ _
    cases hc : x.isComment with
    | true => cases x <;> simp_all [CLine.isComment, CLine.shows, hf.comments]
    | false =>
      rw [plain_iff (hx x hm) hc]
      simp [hf.comments, hf.directives]
  classical
  rw [C32_output_partial L f _ hnl p h hf.unused hf.library ?_ ?_ ?_ hn ?_ (fun h => by rw [hf.whitespace] at h; cases h) ?_
    (fun l => decide (Visible f l)) (fun l => by simp)]
  · rw [if_pos hf.comments, show outsideComments false (xs.map CLine.render) = xs.map CLine.render from ?_, List.filter_map, List.map_map]
    · congr 1
      rw [show xs.filter ((fun l => decide (Visible f l)) ∘ CLine.render) = xs.filter CLine.shows from
        List.filter_congr fun x hm => by rw [Bool.eq_iff_iff, Function.comp_apply, decide_eq_true_eq]; exact vis x hm]
      exact List.map_congr_left fun x _ => hcl _
    · clear hnl vis hn h hd
      induction xs with
      | nil => rfl
      | cons x xs ih =>
        rw [List.map_cons, outsideComments, if_neg (by simp [(no_words (hx x (by simp)).usual).1]), ih fun y hy => hx y (by simp [hy])]
  · intro hc _ l hl
    obtain ⟨x, hm, rfl⟩ := List.mem_map.1 hl
    rw [hcl]
    show ¬ StartsWithOneOf dataDirectives x.text
    cases hs : x.shows with
    | true => exact hd hc x hm hs
    | false =>
      cases hcm : x.isComment with
      | false => exact ((plain_iff (hx x hm) hcm).2 hs).2.2.1
      | true =>
        rintro ⟨bs, kw, r, hb, hk, e⟩
        obtain ⟨w, rfl⟩ := (by decide : ∀ kw ∈ dataDirectives, kw.head? = some c! '.') kw hk |> List.head?_eq_some_iff.1
        cases x with
        | comment ind m t =>
          obtain ⟨bs', c, r', e', hb', hm'⟩ := comment_text (hx _ hm).usual
          rw [e', List.append_assoc, List.cons_append] at e
          exact hm'.not.2.2.2 (blanks_first hb' hb hm'.not.1 (by decide) e).1
        | _ => cases hcm
  · intro l hl hb
    obtain ⟨x, hm, rfl⟩ := List.mem_map.1 hl
    have h1 := (no_words (hx x hm).usual).2.2.2
    rw [Bool.eq_false_iff] at h1
    refine (h1 (List.all_eq_true.2 fun c hc => ?_)).elim
    have := hb c hc
    unfold Blank at this
    simpa using this
  · rw [NoInlineAsm, inputLines_unlines _ hnl]
    intro l hl bs r hb
    obtain ⟨x, hm, rfl⟩ := List.mem_map.1 hl
    have h1 := (no_words (hx x hm).usual).2.1
    rw [← startsAsm, Bool.or_eq_false_iff] at h1
    constructor
    · intro e
      rw [(startAppBlock_iff _).2 ⟨bs, r, hb, e⟩] at h1
      cases h1.1
    · intro e
      rw [(startAsmNesting_iff _).2 ⟨bs, r, hb, e⟩] at h1
      cases h1.2
  · intro l hl _ hc
    obtain ⟨x, hm, rfl⟩ := List.mem_map.1 hl
    rw [hcl] at hc ⊢
    have hc := (occurs_iff _ _).2 hc
    cases hdir : x.isDirective with
    | false =>
      have := (hx x hm).start hdir
      unfold CLine.text at this
      rw [hc] at this
      cases this
    | true =>
      refine (plain_iff (hx x hm) ?_).2 ?_ <;> cases x <;> simp_all [CLine.isDirective, CLine.isComment, CLine.shows]
  · intro _ l hl e
    obtain ⟨x, hm, rfl⟩ := List.mem_map.1 hl
    rw [hcl] at e
    exact ((hx x hm).last _ e).1 rfl

/-- C109 for the program: with the options `-outputtext`, `-directives` and `-comment_only`. -/
theorem C109_program (e : Env) (xs : List CLine) (hx : ∀ x ∈ xs, x.Wf) (hin : requestedInput e = crlf (xs.map CLine.render))
    (hl : e.localeOk = true) (hi : hasInput e.args) (h1 : b! "-outputtext" ∈ e.args) (h2 : b! "-directives" ∈ e.args)
    (h3 : b! "-comment_only" ∈ e.args)
    (h4 : ∀ a ∈ [b! "-binary", b! "-unused_labels", b! "-library_functions", b! "-whitespace"], a ∉ e.args)
    (hd : b! "-nocompat" ∉ e.args → ∀ x ∈ xs, x.shows = true → ¬ StartsWithOneOf dataDirectives x.text)
    (hn : NoCuda (unlines (xs.map CLine.render))) (n : Nat) (r : Result) (h : mainProgram e n = some r) :
    r.exit = 0 ∧ r.stdout = crlf ((xs.filter CLine.shows).map CLine.text) := by
  have hf : UsualFilter (requestedFilter e.args) :=
    ⟨by simp [requestedFilter, h2], by simp [requestedFilter, h3], by simpa [requestedFilter] using h4 _ (by simp),
     by simpa [requestedFilter] using h4 b! "-library_functions" (by simp), by simpa [requestedFilter] using h4 b! "-whitespace" (by simp)⟩
  obtain ⟨h0, p, hp, k1, -⟩ := C48_text e n hl hi (h4 b! "-binary" (by simp)) r h
  rw [if_pos h1] at k1
  rw [hin] at hp
  exact ⟨h0, k1.trans (C109_compiled e.L _ hf xs hx (fun hc => hd (by simpa [requestedFilter] using hc)) hn p hp)⟩

/-- C109: then the JSON output is no valid JSON, unless nothing is shown at all. -/
theorem C109_json (e : Env) (xs : List CLine) (hx : ∀ x ∈ xs, x.Wf) (hin : requestedInput e = crlf (xs.map CLine.render))
    (hl : e.localeOk = true) (hi : hasInput e.args) (h1 : b! "-outputtext" ∉ e.args) (h2 : b! "-directives" ∈ e.args)
    (h3 : b! "-comment_only" ∈ e.args)
    (h4 : ∀ a ∈ [b! "-binary", b! "-unused_labels", b! "-library_functions", b! "-whitespace"], a ∉ e.args)
    (hd : b! "-nocompat" ∉ e.args → ∀ x ∈ xs, x.shows = true → ¬ StartsWithOneOf dataDirectives x.text)
    (hn : NoCuda (unlines (xs.map CLine.render))) (hs : ∃ x ∈ xs, x.shows = true) (n : Nat) (r : Result) (h : mainProgram e n = some r) :
    r.exit = 0 ∧ readJson r.stdout = none := by
  have hf : UsualFilter (requestedFilter e.args) :=
    ⟨by simp [requestedFilter, h2], by simp [requestedFilter, h3], by simpa [requestedFilter] using h4 _ (by simp),
     by simpa [requestedFilter] using h4 b! "-library_functions" (by simp), by simpa [requestedFilter] using h4 b! "-whitespace" (by simp)⟩
  obtain ⟨h0, p, hp, k1, -⟩ := C48_text e n hl hi (h4 b! "-binary" (by simp)) r h
  rw [if_neg h1] at k1
  rw [hin] at hp
  rw [k1]
  refine ⟨h0, C20_text_control e.L _ _ p e.time hp 13 ?_ (by decide) (by decide) (by decide)⟩
  rw [C109_compiled e.L _ hf xs hx (fun hc => hd (by simpa [requestedFilter] using hc)) hn p hp]
  obtain ⟨x, hm, hs⟩ := hs
  unfold crlf
  exact List.mem_flatMap.2 ⟨x.text, List.mem_map_of_mem (List.mem_filter.2 ⟨hm, hs⟩), by simp⟩

/-- The hypotheses hold for the sample of C102 (`compiledSample_wf`), which is parsed. -/
example : NoCuda (unlines (compiledSample.map CLine.render)) ∧
    (textRun { directives := true, commentOnly := true } (crlf (compiledSample.map CLine.render))).map (·.outputText) =
      some (b! "f:      # @f\r\n" ++ b! "        leal    (%rdi,%rdi), %eax   # x\r\n" ++ b! "        ret\r\n.LC0:\r\n" ++ b! "        .string \"abc\"\r\n") := by
  refine ⟨?_, by decide +kernel⟩
  have h : ∀ l ∈ inputLines (unlines (compiledSample.map CLine.render)), occurs b! ".entry" (ink l) = false ∧ occurs b! ".func" (ink l) = false := by
    decide +kernel
  intro l hl
  constructor
  · intro hc
    exact absurd ((h l hl).1.symm.trans ((occurs_iff _ _).2 hc)) (by simp)
  · intro hc
    exact absurd ((h l hl).2.symm.trans ((occurs_iff _ _).2 hc)) (by simp)

end AsmParser
