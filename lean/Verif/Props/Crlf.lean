/-
Property C32: line endings, the exact text with CR LF.
-/
import Verif.Proofs.Crlf
import Verif.Props.TextMode

namespace AsmParser

attribute [local irreducible] Re.search Re.fullMatch

private theorem crlf_eq (ls : List Str) : crlf ls = unlines (ls.map (· ++ [13])) := by
  unfold crlf unlines
  rw [List.flatMap_map]
  simp

/-- C32 (partial): the exact output for a file with CR LF: the lines of the file with LF that are visible, each with its CR at the end.
Here, empty lines are not merged. -/
theorem C32_output_partial (L : Locale) (f : Filter) (ls : List Str) (hls : ∀ l ∈ ls, 10 ∉ l) (p' : TParser)
    (h' : TextResult L f (crlf ls) p')
    (h1 : f.unusedLabels = false) (h2 : f.libraryFunctions = false)
    (h3 : f.compatmode = true → f.directives = true → ∀ l ∈ ls, ¬ StartsWithOneOf dataDirectives (cleaned f l))
    (hb : ∀ l ∈ ls, Blanks l → l = []) (ha : NoInlineAsm (unlines ls)) (hn : NoCuda (unlines ls))
    (hp : ∀ l ∈ ls, f.directives = true → Contains (cleaned f l) b! ".cfi_startproc" → PlainDirective (cleaned f l))
    (hw : f.whitespace = true → ∀ l ∈ ls, ∀ c, l.getLast? = some c → ¬ Blank c)
    (he : f.directives = true → ∀ l ∈ ls, (cleaned f l).getLast? ≠ some c! '=')
    (visible : Str → Bool) (hvb : ∀ l, visible l = true ↔ Visible f l) :
    p'.outputText = crlf (((if f.commentOnly then outsideComments false ls else ls).filter visible).map (cleaned f)) := by
  classical
  have hin : inputLines (unlines ls) = ls := inputLines_unlines ls hls
  have hin' : inputLines (crlf ls) = ls.map (· ++ [13]) := by
    rw [crlf_eq, inputLines_unlines _ (by
      intro l hl
      obtain ⟨x, hx, rfl⟩ := List.mem_map.1 hl
      simpa using hls x hx)]
  have hcl : ∀ l ∈ ls, cleaned f (l ++ [13]) = cleaned f l ++ [13] := fun l hl => cleaned_cr fun hw' => hw hw' l hl
  rw [NoInlineAsm, hin] at ha
  rw [NoCuda, hin] at hn
  have hcuda : ∀ l ∈ ls, ∀ k, ¬ CudaHeader (cleaned f l) k := fun l hl =>
    ordinary_noCuda (f := f) ⟨⟨hb l hl, fun bs r hbs => ha l hl bs r hbs⟩, hn l hl, hp l hl⟩
  have hplain : f.directives = true → ∀ l ∈ ls, (PlainDirective (cleaned f (l ++ [13])) ↔ PlainDirective (cleaned f l)) := by
    intro hd l hl
    rw [hcl l hl]
    exact plainDirective_cr (he hd l hl) (hcuda l hl)
  have e' : p'.outputText = unlines (collapse (((if f.commentOnly then outsideComments false (inputLines (crlf ls)) else inputLines (crlf ls)).filter
      fun l => decide (Visible f l)).map (cleaned f))) := by
    refine C57_visible_lines_partial L f _ p' h' h1 h2 ?_ ?_ ?_ ?_ ?_ _ (fun l => by simp)
    · rw [hin']
      intro a b l hl
      obtain ⟨x, hx, rfl⟩ := List.mem_map.1 hl
      rw [hcl x hx, startsWith_cr dataDirectives (by decide)]
      exact h3 a b x hx
    · rw [hin']
      intro l hl hbl
      obtain ⟨x, hx, rfl⟩ := List.mem_map.1 hl
      have := hbl 13 (by simp)
      exact absurd this (by decide)
    · rw [NoInlineAsm, hin']
      intro l hl bs r hbs
      obtain ⟨x, hx, rfl⟩ := List.mem_map.1 hl
      constructor
      · intro e
        obtain ⟨r', -, e⟩ := cr_split e (by rw [List.getLast?_append]; simp)
        exact (ha x hx bs r' hbs).1 e
      · intro e
        obtain ⟨r', -, e⟩ := cr_split e (by rw [List.getLast?_append]; simp)
        exact (ha x hx bs r' hbs).2 e
    · rw [NoCuda, hin']
      intro l hl
      obtain ⟨x, hx, rfl⟩ := List.mem_map.1 hl
      have : ink (x ++ [13]) = ink x := by rw [ink_append]; simp [ink]
      rw [this]
      exact hn x hx
    · rw [hin']
      intro l hl hd hc
      obtain ⟨x, hx, rfl⟩ := List.mem_map.1 hl
      rw [hplain hd x hx]
      rw [hcl x hx, contains_cr (by decide) (by decide)] at hc
      exact hp x hx hd hc
  rw [hin'] at e'
  -- the lines that are considered
  generalize hX : (if f.commentOnly then outsideComments false ls else ls) = X
  have hX' : (if f.commentOnly then outsideComments false (ls.map (· ++ [13])) else ls.map (· ++ [13])) = X.map (· ++ [13]) := by
    rw [← hX]
    split
    · exact outsideComments_cr ls false
    · rfl
  rw [hX'] at e'
  have hXls : ∀ l ∈ X, l ∈ ls := by
    rw [← hX]
    intro l hl
    split at hl
    · exact outsideComments_sub _ _ l hl
    · exact hl
  have hXo : f.commentOnly = true → ∀ l ∈ X, opensComment l = false := by
    intro hc
    rw [← hX, if_pos hc]
    exact outsideComments_opens ls false
  have hvis : ∀ l ∈ X, (Visible f (l ++ [13]) ↔ Visible f l) := by
    intro l hl
    unfold Visible
    constructor
    · rintro ⟨a, b⟩
      exact ⟨fun hc hx => a hc ((onlyComment_cr (hXo hc l hl)).2 hx), fun hd hx => b hd ((hplain hd l (hXls l hl)).2 hx)⟩
    · rintro ⟨a, b⟩
      exact ⟨fun hc hx => a hc ((onlyComment_cr (hXo hc l hl)).1 hx), fun hd hx => b hd ((hplain hd l (hXls l hl)).1 hx)⟩
  have hY : ((X.map (· ++ [13])).filter fun l => decide (Visible f l)).map (cleaned f) =
      ((X.filter fun l => decide (Visible f l)).map (cleaned f)).map (· ++ [13]) := by
    rw [List.filter_map, List.map_map, List.map_map]
    have : X.filter ((fun l => decide (Visible f l)) ∘ (· ++ [13])) = X.filter fun l => decide (Visible f l) :=
      List.filter_congr fun l hl => by simp only [Function.comp_apply, decide_eq_decide]; exact hvis l hl
    rw [this]
    refine List.map_congr_left fun l hl => ?_
    exact hcl l (hXls l (List.mem_filter.1 hl).1)
  rw [hY] at e'
  rw [e', crlf_eq, show visible = fun l => decide (Visible f l) from funext fun l => by rw [Bool.eq_iff_iff, hvb, decide_eq_true_eq]]
  generalize (X.filter fun l => decide (Visible f l)).map (cleaned f) = Y
  rw [show collapse (Y.map (· ++ [13])) = Y.map (· ++ [13]) from collapseFrom_filled _ _ (by simp)]

/-- C32 (partial): apart from empty lines, a file with CR LF gives exactly the lines that it gives with LF, each with its CR at the
end.  Any of the filters for comments, directives and white space may be on.  Missing: the CR is not removed and empty lines are not
recognised (`C32_violation`); the filters `unused_labels` and `library_functions`; lines that have nothing but blanks, lines that
end in a blank (if white space is filtered), lines that end in `=` (if directives are filtered), inline assembly, CUDA headers, and
what `C57_visible_lines_partial` says about `.cfi_startproc` and data. -/
theorem C32_exact_partial (L : Locale) (f : Filter) (ls : List Str) (hls : ∀ l ∈ ls, 10 ∉ l) (p p' : TParser)
    (h : TextResult L f (unlines ls) p) (h' : TextResult L f (crlf ls) p')
    (h1 : f.unusedLabels = false) (h2 : f.libraryFunctions = false)
    (h3 : f.compatmode = true → f.directives = true → ∀ l ∈ ls, ¬ StartsWithOneOf dataDirectives (cleaned f l))
    (hb : ∀ l ∈ ls, Blanks l → l = []) (ha : NoInlineAsm (unlines ls)) (hn : NoCuda (unlines ls))
    (hp : ∀ l ∈ ls, f.directives = true → Contains (cleaned f l) b! ".cfi_startproc" → PlainDirective (cleaned f l))
    (hw : f.whitespace = true → ∀ l ∈ ls, ∀ c, l.getLast? = some c → ¬ Blank c)
    (he : f.directives = true → ∀ l ∈ ls, (cleaned f l).getLast? ≠ some c! '=') :
    (inputLines p'.outputText).filter (· ≠ [13]) = ((inputLines p.outputText).filter (· ≠ [])).map (· ++ [13]) := by
  classical
  have hin : inputLines (unlines ls) = ls := inputLines_unlines ls hls
  have e := C57_visible_lines_partial L f _ p h h1 h2 (by rw [hin]; exact h3) (by rw [hin]; exact hb) ha hn (by rw [hin]; exact hp)
    (fun l => decide (Visible f l)) (fun l => by simp)
  have e' := C32_output_partial L f ls hls p' h' h1 h2 h3 hb ha hn hp hw he (fun l => decide (Visible f l)) (fun l => by simp)
  rw [hin] at e
  generalize hX : (if f.commentOnly then outsideComments false ls else ls) = X at e e'
  have hXls : ∀ l ∈ X, l ∈ ls := by
    rw [← hX]
    intro l hl
    split at hl
    · exact outsideComments_sub _ _ l hl
    · exact hl
  have hnl : ∀ y ∈ (X.filter fun l => decide (Visible f l)).map (cleaned f), 10 ∉ y := by
    intro y hy
    obtain ⟨l, hl, rfl⟩ := List.mem_map.1 hy
    exact cleaned_no_newline (hls l (hXls l (List.mem_filter.1 hl).1))
  generalize (X.filter fun l => decide (Visible f l)).map (cleaned f) = Y at e e' hnl
  have g : inputLines p.outputText = collapse Y := by
    rw [e]
    refine inputLines_unlines _ fun l hl => ?_
    exact hnl l (collapse_members _ hl)
  have g' : inputLines p'.outputText = Y.map (· ++ [13]) := by
    rw [e', crlf_eq]
    refine inputLines_unlines _ fun l hl => ?_
    obtain ⟨y, hy, rfl⟩ := List.mem_map.1 hl
    simpa using hnl y hy
  rw [g, g', show (collapse Y).filter (· ≠ []) = _ from collapseFrom_filter _ _, List.filter_map]
  congr 1
  refine List.filter_congr fun y _ => ?_
  simp

/-- A small function with a comment, a directive and empty lines. -/
def crlfSample : List Str := [b! "\t.text", b! "f: ;# entry", b! "# only a comment", [], [], b! "\tret\t;  done", b! "/* block", b! "nop */", b! "\t.loc 1 2"]

example : (textRun { commentOnly := true, directives := true, whitespace := true } (unlines crlfSample)).map (·.outputText) =
    some (b! "f: ;# entry\n\n  ret ; done\n") := by decide +kernel

example : (textRun { commentOnly := true, directives := true, whitespace := true } (crlf crlfSample)).map (·.outputText) =
    some (b! "f: ;# entry\r\n\r\n\r\n  ret ; done\r\n") := by decide +kernel

/-- It has none of the lines that the theorem leaves out. -/
example : (∀ l ∈ crlfSample, 10 ∉ l) ∧ (∀ l ∈ crlfSample, Blanks l → l = []) ∧ NoInlineAsm (unlines crlfSample) ∧ NoCuda (unlines crlfSample) ∧
    (∀ l ∈ crlfSample, ∀ c, l.getLast? = some c → ¬ Blank c) ∧
    let f : Filter := { commentOnly := true, directives := true, whitespace := true }
    (∀ l ∈ crlfSample, ¬ StartsWithOneOf dataDirectives (cleaned f l)) ∧ (∀ l ∈ crlfSample, ¬ Contains (cleaned f l) b! ".cfi_startproc") ∧
    (∀ l ∈ crlfSample, (cleaned f l).getLast? ≠ some c! '=') := by
  have hin : inputLines (unlines crlfSample) = crlfSample := by decide +kernel
  refine ⟨by decide +kernel, by decide +kernel, ?_, ?_, ?_, ?_, ?_, by decide +kernel⟩
  · rw [NoInlineAsm, hin]
    intro line hl bs r hb
    have h : ∀ line ∈ crlfSample, startAppBlock line = false ∧ startAsmNesting line = false := by decide +kernel
    constructor
    · intro e
      have := (startAppBlock_iff line).2 ⟨bs, r, hb, e⟩
      rw [(h line hl).1] at this
      exact absurd this (by simp)
    · intro e
      have := (startAsmNesting_iff line).2 ⟨bs, r, hb, e⟩
      rw [(h line hl).2] at this
      exact absurd this (by simp)
  · rw [NoCuda, hin]
    have h : ∀ l ∈ crlfSample, occurs b! ".entry" (ink l) = false ∧ occurs b! ".func" (ink l) = false := by
      decide +kernel
    intro l hl
    have := h l hl
    constructor
    · intro hc
      have hc := (occurs_iff _ _).2 hc
      exact absurd (this.1.symm.trans hc) (by simp)
    · intro hc
      have hc := (occurs_iff _ _).2 hc
      exact absurd (this.2.symm.trans hc) (by simp)
  · intro l hl c hc
    have : ∀ l ∈ crlfSample, ∀ c ∈ l.getLast?, ¬ Blank c := by unfold Blank; decide +kernel
    exact this l hl c hc
  · intro l hl hd
    have : ∀ l ∈ crlfSample, isDataDefn (cleaned { commentOnly := true, directives := true, whitespace := true } l) = false := by decide +kernel
    have e := (isDataDefn_iff _).2 hd
    rw [this l hl] at e
    cases e
  · intro l hl hc
    have : ∀ l ∈ crlfSample, occurs b! ".cfi_startproc" (cleaned { commentOnly := true, directives := true, whitespace := true } l) = false := by
      decide +kernel
    have e := (occurs_iff _ _).2 hc
    rw [this l hl] at e
    cases e

end AsmParser
