/-
Property C110: the filters for directives and comments, each alone, on the assembly code that a compiler writes.
-/
import Verif.Props.CompiledCrlf
import Verif.Props.TextVisible

namespace AsmParser

attribute [local irreducible] Re.search Re.fullMatch

/-- Whether a line is left by the filters for directives and comments. -/
def CLine.passes (f : Filter) : CLine → Bool
  | .label .. | .instr .. | .data .. => true
  | .comment .. => !f.commentOnly
  | .file .. | .loc .. | .block .. | .directive .. => !f.directives

private theorem comment_undirected {x : CLine} (h : x.Wf) (hc : x.isComment = true) : ¬ Directive x.text := by
  cases x with
  | comment ind m t =>
    obtain ⟨bs, c, r, e, hb, hm⟩ := comment_text h.usual
    rintro ⟨bs', r', hb', e'⟩
    rw [e] at e'
    exact hm.not.2.2.2 (blanks_first hb hb' hm.not.1 (by decide) e').1
  | _ => cases hc

private theorem visible_passes {f : Filter} (hw : f.whitespace = false) {x : CLine} (h : x.Wf) : Visible f x.render ↔ x.passes f = true := by
  have hcl : ∀ l, cleaned f l = expandTabs l := fun l => by unfold cleaned; rw [if_neg (by simp [hw])]
  unfold Visible
  rw [hcl, only_comment h.usual]
  show (_ → _) ∧ (_ → ¬ PlainDirective x.text) ↔ _
  cases hc : x.isComment with
  | true =>
    have : ¬ PlainDirective x.text := fun hp => comment_undirected h hc hp.1
    cases x <;> simp_all [CLine.isComment, CLine.passes]
  | false =>
    rw [plain_iff h hc]
    cases x <;> simp_all [CLine.isComment, CLine.passes, CLine.shows]

private theorem pass_text {x : CLine} (h : x.Wf) : x.text ≠ [] := by
  cases hs : x.shows with
  | true => exact text_ne_nil h hs
  | false =>
    intro e
    cases hc : x.isComment with
    | true =>
      cases x with
      | comment ind m t => obtain ⟨bs, c, r, e', -⟩ := comment_text h.usual; rw [e] at e'; simp at e'
      | _ => cases hc
    | false =>
      obtain ⟨bs, r, -, e'⟩ := ((plain_iff h hc).2 hs).1
      rw [e] at e'
      simp at e'

/-- The conditions of C57 and C32 hold. -/
private theorem pass_conditions {f : Filter} (hw : f.whitespace = false) {xs : List CLine} (hx : ∀ x ∈ xs, x.Wf)
    (hd : f.compatmode = true → f.directives = true → ∀ x ∈ xs, x.shows = true → ¬ StartsWithOneOf dataDirectives x.text) :
    (∀ l ∈ xs.map CLine.render, 10 ∉ l) ∧
    (f.compatmode = true → f.directives = true → ∀ l ∈ xs.map CLine.render, ¬ StartsWithOneOf dataDirectives (cleaned f l)) ∧
    (∀ l ∈ xs.map CLine.render, Blanks l → l = []) ∧ NoInlineAsm (unlines (xs.map CLine.render)) ∧
    (∀ l ∈ xs.map CLine.render, f.directives = true → Contains (cleaned f l) b! ".cfi_startproc" → PlainDirective (cleaned f l)) ∧
    (f.directives = true → ∀ l ∈ xs.map CLine.render, (cleaned f l).getLast? ≠ some c! '=') ∧
    outsideComments false (xs.map CLine.render) = xs.map CLine.render := by
  have hcl : ∀ l, cleaned f l = expandTabs l := fun l => by unfold cleaned; rw [if_neg (by simp [hw])]
  have hnl : ∀ l ∈ xs.map CLine.render, 10 ∉ l := by
    intro l hl
    obtain ⟨x, hm, rfl⟩ := List.mem_map.1 hl
    exact (hx x hm).usual.noNewline
  refine ⟨hnl, ?_, ?_, ?_, ?_, ?_, ?_⟩
  · intro hc hdir l hl
    obtain ⟨x, hm, rfl⟩ := List.mem_map.1 hl
    rw [hcl]
    show ¬ StartsWithOneOf dataDirectives x.text
    cases hs : x.shows with
    | true => exact hd hc hdir x hm hs
    | false =>
      cases hcm : x.isComment with
      | false => exact ((plain_iff (hx x hm) hcm).2 hs).2.2.1
      | true =>
        rintro ⟨bs, kw, r, hb, hk, e⟩
        obtain ⟨w, rfl⟩ := (by decide : ∀ kw ∈ dataDirectives, kw.head? = some c! '.') kw hk |> List.head?_eq_some_iff.1
        exact comment_undirected (hx x hm) hcm ⟨bs, w ++ r, hb, by rw [e]; simp⟩
  · intro l hl hb
    obtain ⟨x, hm, rfl⟩ := List.mem_map.1 hl
    have h1 := (no_words (hx x hm).usual).2.2.2
    rw [Bool.eq_false_iff] at h1
    refine (h1 (List.all_eq_true.2 fun c hc => ?_)).elim
    have := hb c hc
    unfold Blank at this
    simpa using this
  · rw [NoInlineAsm, inputLines_unlines _ hnl]
    intro l hl bs r hb
    obtain ⟨x, hm, rfl⟩ := List.mem_map.1 hl
    have h1 := (no_words (hx x hm).usual).2.1
    rw [← startsAsm, Bool.or_eq_false_iff] at h1
    constructor
    · intro e
      rw [(startAppBlock_iff _).2 ⟨bs, r, hb, e⟩] at h1
      cases h1.1
    · intro e
      rw [(startAsmNesting_iff _).2 ⟨bs, r, hb, e⟩] at h1
      cases h1.2
  · intro l hl _ hc
    obtain ⟨x, hm, rfl⟩ := List.mem_map.1 hl
    rw [hcl] at hc ⊢
    have hc := (occurs_iff _ _).2 hc
    cases hdir : x.isDirective with
    | false =>
      have := (hx x hm).start hdir
      unfold CLine.text at this
      rw [hc] at this
      cases this
    | true =>
      refine (plain_iff (hx x hm) ?_).2 ?_ <;> cases x <;> simp_all [CLine.isDirective, CLine.isComment, CLine.shows]
  · intro _ l hl e
    obtain ⟨x, hm, rfl⟩ := List.mem_map.1 hl
    rw [hcl] at e
    exact ((hx x hm).last _ e).1 rfl
  · clear hnl hd
    induction xs with
    | nil => rfl
    | cons x xs ih =>
      rw [List.map_cons, outsideComments, if_neg (by simp [(no_words (hx x (by simp)).usual).1]), ih fun y hy => hx y (by simp [hy])]

private theorem pass_lines {f : Filter} (hw : f.whitespace = false) {xs : List CLine} (hx : ∀ x ∈ xs, x.Wf) (keep : Str → Bool)
    (hk : ∀ l, keep l = true ↔ Visible f l) :
    ((xs.map CLine.render).filter keep).map (cleaned f) = (xs.filter (CLine.passes f)).map CLine.text := by
  have hcl : ∀ l, cleaned f l = expandTabs l := fun l => by unfold cleaned; rw [if_neg (by simp [hw])]
  rw [List.filter_map, List.map_map]
  rw [show xs.filter (keep ∘ CLine.render) = xs.filter (CLine.passes f) from
    List.filter_congr fun x hm => by rw [Bool.eq_iff_iff, Function.comp_apply, hk]; exact visible_passes hw (hx x hm)]
  exact List.map_congr_left fun x _ => hcl _

/-- C110: of the assembly code that a compiler writes, the filter for comments removes exactly the comments and the filter for directives
exactly the directives that place no data; all other lines stay in their order and unchanged but for tabs. -/
theorem C110_filters (L : Locale) (f : Filter) (h1 : f.unusedLabels = false) (h2 : f.libraryFunctions = false) (hw : f.whitespace = false)
    (xs : List CLine) (hx : ∀ x ∈ xs, x.Wf)
    (hd : f.compatmode = true → f.directives = true → ∀ x ∈ xs, x.shows = true → ¬ StartsWithOneOf dataDirectives x.text)
    (hn : NoCuda (unlines (xs.map CLine.render))) (p : TParser) (h : TextResult L f (unlines (xs.map CLine.render)) p) :
    p.outputText = unlines ((xs.filter (CLine.passes f)).map CLine.text) := by
  classical
  obtain ⟨c1, c2, c3, c4, c5, -, c7⟩ := pass_conditions hw hx hd
  have hin := inputLines_unlines _ c1
  have e := C57_visible_lines_partial L f _ p h h1 h2 (by rw [hin]; exact c2) (by rw [hin]; exact c3) c4 hn (by rw [hin]; exact c5)
    (fun l => decide (Visible f l)) (fun l => by simp)
  rw [hin, c7, ite_self, pass_lines hw hx _ (fun l => by simp)] at e
  rw [e]
  congr 1
  have : ∀ t ∈ (xs.filter (CLine.passes f)).map CLine.text, t ≠ [] := by
    intro t ht
    obtain ⟨x, hm, rfl⟩ := List.mem_map.1 ht
    exact pass_text (hx x (List.mem_filter.1 hm).1)
  generalize (xs.filter (CLine.passes f)).map CLine.text = ts at this
  unfold collapse
  generalize true = b
  induction ts generalizing b with
  | nil => rfl
  | cons t ts ih =>
    unfold collapseFrom
    rw [if_neg (this t (by simp)), ih fun u hu => this u (by simp [hu])]

/-- C110 for CR LF: the same lines, each with its CR LF. -/
theorem C110_crlf (L : Locale) (f : Filter) (h1 : f.unusedLabels = false) (h2 : f.libraryFunctions = false) (hw : f.whitespace = false)
    (xs : List CLine) (hx : ∀ x ∈ xs, x.Wf)
    (hd : f.compatmode = true → f.directives = true → ∀ x ∈ xs, x.shows = true → ¬ StartsWithOneOf dataDirectives x.text)
    (hn : NoCuda (unlines (xs.map CLine.render))) (p : TParser) (h : TextResult L f (crlf (xs.map CLine.render)) p) :
    p.outputText = crlf ((xs.filter (CLine.passes f)).map CLine.text) := by
  classical
  obtain ⟨c1, c2, c3, c4, c5, c6, c7⟩ := pass_conditions hw hx hd
  have e := C32_output_partial L f _ c1 p h h1 h2 c2 c3 c4 hn c5 (fun h => by rw [hw] at h; cases h) c6
    (fun l => decide (Visible f l)) (fun l => by simp)
  rwa [c7, ite_self, pass_lines hw hx _ (fun l => by simp)] at e

/-- C110 for the program: what it prints, for all choices of `-directives`, `-comment_only` and `-nocompat`. -/
theorem C110_program (e : Env) (xs : List CLine) (hx : ∀ x ∈ xs, x.Wf) (hin : requestedInput e = unlines (xs.map CLine.render))
    (hl : e.localeOk = true) (hi : hasInput e.args) (h1 : b! "-outputtext" ∈ e.args)
    (h4 : ∀ a ∈ [b! "-binary", b! "-unused_labels", b! "-library_functions", b! "-whitespace"], a ∉ e.args)
    (hd : b! "-nocompat" ∉ e.args → b! "-directives" ∈ e.args → ∀ x ∈ xs, x.shows = true → ¬ StartsWithOneOf dataDirectives x.text)
    (hn : NoCuda (unlines (xs.map CLine.render))) (n : Nat) (r : Result) (h : mainProgram e n = some r) :
    r.exit = 0 ∧ ∃ left : CLine → Bool,
      (∀ x, left x = true ↔ (x.isComment = true → b! "-comment_only" ∉ e.args) ∧
        (x.isComment = false → x.shows = false → b! "-directives" ∉ e.args)) ∧
      r.stdout = unlines ((xs.filter left).map CLine.text) := by
  obtain ⟨h0, p, hp, k1, -⟩ := C48_text e n hl hi (h4 b! "-binary" (by simp)) r h
  rw [if_pos h1] at k1
  rw [hin] at hp
  refine ⟨h0, CLine.passes (requestedFilter e.args), ?_, k1.trans (C110_filters e.L _ (by simpa [requestedFilter] using h4 b! "-unused_labels" (by simp))
    (by simpa [requestedFilter] using h4 b! "-library_functions" (by simp)) (by simpa [requestedFilter] using h4 b! "-whitespace" (by simp)) xs hx
    (fun hc hdir => hd (by simpa [requestedFilter] using hc) (by simpa [requestedFilter] using hdir)) hn p hp)⟩
  intro x
  cases x <;> simp [CLine.passes, CLine.isComment, CLine.shows, requestedFilter]

/-- C110 for the program if the lines end in CR LF. -/
theorem C110_crlf_program (e : Env) (xs : List CLine) (hx : ∀ x ∈ xs, x.Wf) (hin : requestedInput e = crlf (xs.map CLine.render))
    (hl : e.localeOk = true) (hi : hasInput e.args) (h1 : b! "-outputtext" ∈ e.args)
    (h4 : ∀ a ∈ [b! "-binary", b! "-unused_labels", b! "-library_functions", b! "-whitespace"], a ∉ e.args)
    (hd : b! "-nocompat" ∉ e.args → b! "-directives" ∈ e.args → ∀ x ∈ xs, x.shows = true → ¬ StartsWithOneOf dataDirectives x.text)
    (hn : NoCuda (unlines (xs.map CLine.render))) (n : Nat) (r : Result) (h : mainProgram e n = some r) :
    r.exit = 0 ∧ ∃ left : CLine → Bool,
      (∀ x, left x = true ↔ (x.isComment = true → b! "-comment_only" ∉ e.args) ∧
        (x.isComment = false → x.shows = false → b! "-directives" ∉ e.args)) ∧
      r.stdout = crlf ((xs.filter left).map CLine.text) := by
  obtain ⟨h0, p, hp, k1, -⟩ := C48_text e n hl hi (h4 b! "-binary" (by simp)) r h
  rw [if_pos h1] at k1
  rw [hin] at hp
  refine ⟨h0, CLine.passes (requestedFilter e.args), ?_, k1.trans (C110_crlf e.L _ (by simpa [requestedFilter] using h4 b! "-unused_labels" (by simp))
    (by simpa [requestedFilter] using h4 b! "-library_functions" (by simp)) (by simpa [requestedFilter] using h4 b! "-whitespace" (by simp)) xs hx
    (fun hc hdir => hd (by simpa [requestedFilter] using hc) (by simpa [requestedFilter] using hdir)) hn p hp)⟩
  intro x
  cases x <;> simp [CLine.passes, CLine.isComment, CLine.shows, requestedFilter]

/-- C110: without filters every line is printed. -/
theorem C110_none (L : Locale) (f : Filter) (h1 : f.unusedLabels = false) (h2 : f.libraryFunctions = false) (hw : f.whitespace = false)
    (h3 : f.directives = false) (h4 : f.commentOnly = false) (xs : List CLine) (hx : ∀ x ∈ xs, x.Wf)
    (hn : NoCuda (unlines (xs.map CLine.render))) (p : TParser) (h : TextResult L f (unlines (xs.map CLine.render)) p) :
    p.outputText = unlines (xs.map CLine.text) := by
  rw [C110_filters L f h1 h2 hw xs hx (fun _ h => by rw [h3] at h; cases h) hn p h]
  congr 2
  refine List.filter_eq_self.2 fun x _ => ?_
  cases x <;> simp [CLine.passes, h3, h4]

/-- The hypotheses hold for the sample of C102 (`compiledSample_wf`), see also the example of C109.  What is shown of it with each filter alone: -/
example : (textRun { commentOnly := true } (unlines (compiledSample.map CLine.render))).map (fun p => p.outputText) =
      some (unlines ((compiledSample.filter fun x => !x.isComment).map CLine.text)) ∧
    (textRun { directives := true } (unlines (compiledSample.map CLine.render))).map (·.outputText) =
      some (b! "f:      # @f\n" ++ b! "        // body\n" ++ b! "        leal    (%rdi,%rdi), %eax   # x\n" ++ b! "        ret\n.LC0:\n" ++
        b! "        .string \"abc\"\n") := by
  decide +kernel

end AsmParser
