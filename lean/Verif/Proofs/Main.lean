/-
Lemmas about the command line program.
-/
import Verif.Spec.Main

namespace AsmParser

/-- The configuration after `args` if it was `c` before them. -/
def Config.after (c : Config) (args : List Str) : Config where
  filter := {
    binary := c.filter.binary || decide (b! "-binary" ∈ args)
    unusedLabels := c.filter.unusedLabels || decide (b! "-unused_labels" ∈ args)
    libraryFunctions := c.filter.libraryFunctions || decide (b! "-library_functions" ∈ args)
    directives := c.filter.directives || decide (b! "-directives" ∈ args)
    commentOnly := c.filter.commentOnly || decide (b! "-comment_only" ∈ args)
    whitespace := c.filter.whitespace || decide (b! "-whitespace" ∈ args)
    plt := c.filter.plt || decide (b! "-plt" ∈ args)
    dontMaskFilenames := c.filter.dontMaskFilenames || decide (b! "-dont_mask_filenames" ∈ args)
    compatmode := c.filter.compatmode && decide (b! "-nocompat" ∉ args)
    codeOnly := c.filter.codeOnly }
  filename := (requestedFile args).getD c.filename
  useStdin := c.useStdin || decide (b! "-stdin" ∈ args)
  isConfigured := c.isConfigured || (decide (b! "-stdin" ∈ args) || (requestedFile args).isSome)
  doDebugDump := c.doDebugDump || decide (b! "-debugdump" ∈ args)
  outputText := c.outputText || decide (b! "-outputtext" ∈ args)

theorem requestedFile_switch {a : Str} {as : List Str} (h : a ∈ switches) : requestedFile (a :: as) = requestedFile as := by
  unfold requestedFile
  rw [List.filter_cons_of_neg (by simpa using h)]

theorem requestedFile_name {a : Str} {as : List Str} (h : a ∉ switches) :
    requestedFile (a :: as) = some ((requestedFile as).getD a) := by
  unfold requestedFile
  rw [List.filter_cons_of_pos (by simpa using h)]
  cases h2 : List.filter (fun a => decide (a ∉ switches)) as with
  | nil => rfl
  | cons x xs => rw [List.getLast?_cons_cons]; simp [List.getLast?_cons]

theorem after_arg (c : Config) (a : Str) (as : List Str) : (c.arg a).after as = c.after (a :: as) := by
  unfold Config.arg
  by_cases h : a ∈ switches
  · have hf := requestedFile_switch (as := as) h
    simp only [switches, List.mem_cons, List.not_mem_nil, or_false] at h
    rcases h with rfl | rfl | rfl | rfl | rfl | rfl | rfl | rfl | rfl | rfl | rfl | rfl <;>
    · unfold Config.after
      rw [hf]
      simp
  · have hf := requestedFile_name (as := as) h
    simp only [switches, List.mem_cons, List.not_mem_nil, or_false, not_or] at h
    obtain ⟨h1, h2, h3, h4, h5, h6, h7, h8, h9, h10, h11, h12⟩ := h
    unfold Config.after
    rw [hf]
    simp [h1, h2, h3, h4, h5, h6, h7, h8, h9, h10, h11, h12, Ne.symm h1, Ne.symm h2, Ne.symm h3, Ne.symm h4, Ne.symm h5,
      Ne.symm h6, Ne.symm h7, Ne.symm h8, Ne.symm h9, Ne.symm h10, Ne.symm h11, Ne.symm h12]

theorem after_nil (c : Config) : c.after [] = c := by
  unfold Config.after requestedFile
  simp

theorem foldl_arg (c : Config) (args : List Str) : args.foldl Config.arg c = c.after args := by
  induction args generalizing c with
  | nil => exact (after_nil c).symm
  | cons a as ih => rw [List.foldl_cons, ih, after_arg]

end AsmParser
