/-
Property C101: options that have no effect.
-/
import Verif.Proofs.Unaffected
import Verif.Spec.Unaffected
import Verif.Props.Main
import Verif.Props.TextJson
import Verif.Proofs.ObjLines

namespace AsmParser

attribute [local irreducible] Re.search Re.fullMatch

/-! ### C101 -/

/-- C101 for text mode: `plt`, `code_only` and `binary` have no effect at all; `dont_mask_filenames` has none on the lines and on the text
output, nor has `compatmode` unless `directives` is set. -/
theorem C101_text (L : Locale) (f g : Filter) (s : Str) (o : Order) (n : Nat) (v : List Str)
    (h1 : f.libraryFunctions = g.libraryFunctions) (h2 : f.directives = g.directives) (h3 : f.commentOnly = g.commentOnly)
    (h4 : f.whitespace = g.whitespace) (h5 : f.unusedLabels = g.unusedLabels) (h6 : f.compatmode = g.compatmode ∨ f.directives = false) :
    ((TParser.init f).fromStream L o n s v = none ↔ (TParser.init g).fromStream L o n s v = none) ∧
    ∀ p v', (TParser.init f).fromStream L o n s v = some (p, v') → ∃ q, (TParser.init g).fromStream L o n s v = some (q, v') ∧
      p.lines = q.lines ∧ p.outputText = q.outputText ∧
      (f.dontMaskFilenames = g.dontMaskFilenames → (∀ d num, p.outputDebugJson d num = q.outputDebugJson d num) ∧
        (f.compatmode = g.compatmode → ∀ time, p.outputJson time = q.outputJson time)) := by
  have e : g = f.withRest g := by
    cases f; cases g
    simp only [Filter.withRest, Filter.mk.injEq]
    simp_all
  have key := fromStream_same L o n (f := f) (g := g) s v h5 h6
  rw [← e] at key
  rw [key]
  cases hr : (TParser.init f).fromStream L o n s v with
  | none => exact ⟨⟨fun _ => rfl, fun _ => rfl⟩, fun p v' h => by cases h⟩
  | some r =>
    refine ⟨⟨fun h => (by cases h), fun h => (by cases h)⟩, fun p v' h => ?_⟩
    cases h
    have hf : p.filter = f := result_filter ⟨o, n, v, v', hr⟩
    refine ⟨_, rfl, rfl, rfl, fun h7 => ⟨fun d num => ?_, fun h8 time => ?_⟩⟩
    · have hw : ∀ l, writeDebugLine (p.withRest g).filter l num = writeDebugLine p.filter l num := by
        have : (p.withRest g).filter.dontMaskFilenames = p.filter.dontMaskFilenames := by rw [hf]; exact h7.symm
        intro l
        unfold writeDebugLine writeSource sourceFileField
        rw [this]
      unfold TParser.outputDebugJson TParser.debugDoc DebugDoc.write
      simp only [hw]
      rfl
    · have hw : writeLine (p.withRest g).filter = writeLine p.filter := by
        have e1 : (p.withRest g).filter.dontMaskFilenames = p.filter.dontMaskFilenames := by rw [hf]; exact h7.symm
        have e2 : (p.withRest g).filter.compatmode = p.filter.compatmode := by rw [hf]; exact h8.symm
        funext l
        unfold writeLine writeSource sourceFileField
        rw [e1, e2]
      unfold TParser.outputJson TParser.jsonDoc JsonDoc.write
      simp only [hw]
      rfl

/-- C101 for binary mode: only `plt` and `library_functions` influence the lines and the text output; on the JSON output also
`dont_mask_filenames` and `compatmode`. -/
theorem C101_binary (L : Locale) (f g : Filter) (s : Str) (h1 : f.plt = g.plt) (h2 : f.libraryFunctions = g.libraryFunctions) :
    (objParse L f s).lines = (objParse L g s).lines ∧ (objParse L f s).outputText = (objParse L g s).outputText ∧
    (f.dontMaskFilenames = g.dontMaskFilenames → f.compatmode = g.compatmode →
      ∀ time, (objParse L f s).outputJson time = (objParse L g s).outputJson time) := by
  have e : g = f.withTextPart g := by
    cases f; cases g
    simp only [Filter.withTextPart, Filter.mk.injEq]
    simp_all
  have key := ofromStream_rest L f g s
  rw [← e] at key
  have key : objParse L g s = (objParse L f s).withRest g := key
  have hf : (objParse L f s).filter = f := parse_filter L f s
  rw [key]
  refine ⟨rfl, rfl, fun h3 h4 time => ?_⟩
  have hw : writeLine ((objParse L f s).withRest g).filter = writeLine (objParse L f s).filter := by
    have e1 : ((objParse L f s).withRest g).filter.dontMaskFilenames = (objParse L f s).filter.dontMaskFilenames := by rw [hf]; exact h3.symm
    have e2 : ((objParse L f s).withRest g).filter.compatmode = (objParse L f s).filter.compatmode := by rw [hf]; exact h4.symm
    funext l
    unfold writeLine writeSource sourceFileField
    rw [e1, e2]
  unfold OParser.outputJson OParser.jsonDoc JsonDoc.write
  simp only [hw]
  rfl

theorem Config.isConfigured_eq (args : List Str) : (Config.ofArgs args).isConfigured = (decide (b! "-stdin" ∈ args) || (requestedFile args).isSome) := by
  have := (C47_switches args).2.2.2.2.2
  unfold hasInput at this
  rw [Bool.eq_iff_iff, this]
  simp

/-- C101 for the program: options that have no effect can be added and left out. -/
theorem C101_program (e : Env) (args : List Str) (n : Nat) (h : SameBut (withoutEffect e.args) e.args args) :
    mainProgram { e with args } n = mainProgram e n := by
  obtain ⟨h, hfile⟩ := h
  obtain ⟨a1, a2, a3, a4, a5, -⟩ := C47_switches e.args
  obtain ⟨b1, b2, b3, b4, b5, -⟩ := C47_switches args
  have hsw : ∀ a, a ∈ switches → a ∉ withoutEffect e.args → decide (a ∈ e.args) = decide (a ∈ args) := fun a h1 h2 => by
    have := h a h1 h2
    by_cases h3 : a ∈ args <;> simp_all
  unfold mainProgram
  simp only [Config.isConfigured_eq, a1, a2, a3, a4, a5, b1, b2, b3, b4, b5]
  by_cases hb : b! "-binary" ∈ e.args
  · have hw : withoutEffect e.args = [b! "-unused_labels", b! "-directives", b! "-comment_only", b! "-whitespace", b! "-debugdump"] := if_pos hb
    rw [hw] at hsw
    have s1 := hsw b! "-binary" (by decide +kernel) (by decide +kernel)
    have s2 := hsw b! "-plt" (by decide +kernel) (by decide +kernel)
    have s3 := hsw b! "-library_functions" (by decide +kernel) (by decide +kernel)
    have s4 := hsw b! "-dont_mask_filenames" (by decide +kernel) (by decide +kernel)
    have s5 := hsw b! "-nocompat" (by decide +kernel) (by decide +kernel)
    have s6 := hsw b! "-outputtext" (by decide +kernel) (by decide +kernel)
    have s7 := hsw b! "-stdin" (by decide +kernel) (by decide +kernel)
    have hx : (requestedFilter e.args).binary = true := by simpa [requestedFilter] using hb
    have hy : (requestedFilter args).binary = true := by rw [← hx]; exact s1.symm
    rw [hx, hy, ← s6, ← s7, ← hfile]
    have t1 : ∀ s, ((OParser.init (requestedFilter args)).fromStream e.L s).outputText = ((OParser.init (requestedFilter e.args)).fromStream e.L s).outputText :=
      fun s => (C101_binary e.L _ _ s s2 s3).2.1.symm
    have t2 : ∀ s, ((OParser.init (requestedFilter args)).fromStream e.L s).outputJson e.time =
        ((OParser.init (requestedFilter e.args)).fromStream e.L s).outputJson e.time :=
      fun s => ((C101_binary e.L (requestedFilter e.args) (requestedFilter args) s s2 s3).2.2 s4
        (by show decide (¬ _) = decide (¬ _); rw [decide_not, decide_not, s5]) e.time).symm
    simp only [t1, t2, if_true]
  · have hw : withoutEffect e.args = if b! "-stdin" ∈ e.args then [b! "-plt", b! "-debugdump"] else [b! "-plt"] := if_neg hb
    have hw' : ∀ a ∈ withoutEffect e.args, a ∈ [b! "-plt", b! "-debugdump"] := by
      rw [hw]; split
      · exact fun _ h => h
      · intro a ha; simp at ha; simp [ha]
    have hsw' : ∀ a, a ∈ switches → a ∉ [b! "-plt", b! "-debugdump"] → decide (a ∈ e.args) = decide (a ∈ args) :=
      fun a h1 h2 => hsw a h1 fun h => h2 (hw' a h)
    have s1 := hsw' b! "-binary" (by decide +kernel) (by decide +kernel)
    have s2 := hsw' b! "-unused_labels" (by decide +kernel) (by decide +kernel)
    have s3 := hsw' b! "-library_functions" (by decide +kernel) (by decide +kernel)
    have s4 := hsw' b! "-dont_mask_filenames" (by decide +kernel) (by decide +kernel)
    have s5 := hsw' b! "-nocompat" (by decide +kernel) (by decide +kernel)
    have s6 := hsw' b! "-outputtext" (by decide +kernel) (by decide +kernel)
    have s7 := hsw' b! "-stdin" (by decide +kernel) (by decide +kernel)
    have s8 := hsw' b! "-directives" (by decide +kernel) (by decide +kernel)
    have s9 := hsw' b! "-comment_only" (by decide +kernel) (by decide +kernel)
    have s10 := hsw' b! "-whitespace" (by decide +kernel) (by decide +kernel)
    have s11 : (!decide (b! "-stdin" ∈ e.args) && decide (b! "-debugdump" ∈ e.args)) =
        (!decide (b! "-stdin" ∈ e.args) && decide (b! "-debugdump" ∈ args)) := by
      by_cases hs : b! "-stdin" ∈ e.args
      · simp [hs]
      · rw [hsw b! "-debugdump" (by decide +kernel) (by rw [hw, if_neg hs]; decide +kernel)]
    have hx : (requestedFilter e.args).binary = false := by simpa [requestedFilter] using hb
    have hy : (requestedFilter args).binary = false := by rw [← hx]; exact s1.symm
    have s5' : (requestedFilter e.args).compatmode = (requestedFilter args).compatmode := by
      show decide (¬ _) = decide (¬ _); rw [decide_not, decide_not, s5]
    rw [hx, hy, ← s6, ← s7, ← hfile]
    simp only [s11, Bool.false_eq_true, if_false]
    split
    · rfl
    · split
      · rfl
      · obtain ⟨k1, k2⟩ := C101_text e.L (requestedFilter e.args) (requestedFilter args)
          (if (!decide (b! "-stdin" ∈ e.args)) = true then e.file ((requestedFile e.args).getD []) else e.stdin) e.order n [] s3 s8 s9 s10 s2 (.inl s5')
        cases hr : (TParser.init (requestedFilter e.args)).fromStream e.L e.order n
            (if (!decide (b! "-stdin" ∈ e.args)) = true then e.file ((requestedFile e.args).getD []) else e.stdin) [] with
        | none => rw [k1.1 hr]
        | some r =>
          obtain ⟨q, hq, -, h4, h5⟩ := k2 r.1 r.2 hr
          obtain ⟨h6, h7⟩ := h5 s4
          rw [hq]
          simp only [h4, h6, h7 s5']

/-- C101 for what is printed: if the output is text, more options have no effect on it. -/
theorem C101_program_text (e : Env) (args : List Str) (n : Nat) (ht : b! "-outputtext" ∈ e.args)
    (h : SameBut (withoutEffectOnText e.args) e.args args) :
    (mainProgram { e with args } n).map (fun r => (r.stdout, r.exit)) = (mainProgram e n).map fun r => (r.stdout, r.exit) := by
  obtain ⟨h, hfile⟩ := h
  obtain ⟨a1, a2, a3, a4, a5, -⟩ := C47_switches e.args
  obtain ⟨b1, b2, b3, b4, b5, -⟩ := C47_switches args
  have hsw : ∀ a, a ∈ switches → a ∉ withoutEffectOnText e.args → decide (a ∈ e.args) = decide (a ∈ args) := fun a h1 h2 => by
    have := h a h1 h2
    by_cases h3 : a ∈ args <;> simp_all
  unfold mainProgram
  simp only [Config.isConfigured_eq, a1, a2, a3, a4, a5, b1, b2, b3, b4, b5]
  by_cases hb : b! "-binary" ∈ e.args
  · have hw : withoutEffectOnText e.args = [b! "-unused_labels", b! "-directives", b! "-comment_only", b! "-whitespace", b! "-debugdump",
      b! "-dont_mask_filenames", b! "-nocompat"] := if_pos hb
    rw [hw] at hsw
    have s1 := hsw b! "-binary" (by decide +kernel) (by decide +kernel)
    have s2 := hsw b! "-plt" (by decide +kernel) (by decide +kernel)
    have s3 := hsw b! "-library_functions" (by decide +kernel) (by decide +kernel)
    have s6 := hsw b! "-outputtext" (by decide +kernel) (by decide +kernel)
    have s7 := hsw b! "-stdin" (by decide +kernel) (by decide +kernel)
    have hx : (requestedFilter e.args).binary = true := by simpa [requestedFilter] using hb
    have hy : (requestedFilter args).binary = true := by rw [← hx]; exact s1.symm
    rw [hx, hy, ← s6, ← s7, ← hfile]
    have t1 : ∀ s, ((OParser.init (requestedFilter args)).fromStream e.L s).outputText = ((OParser.init (requestedFilter e.args)).fromStream e.L s).outputText :=
      fun s => (C101_binary e.L _ _ s s2 s3).2.1.symm
    simp only [t1, ht, decide_true, if_true]
  · have hw : withoutEffectOnText e.args = if b! "-directives" ∈ e.args then [b! "-plt", b! "-debugdump", b! "-dont_mask_filenames"] else
      [b! "-plt", b! "-debugdump", b! "-dont_mask_filenames", b! "-nocompat"] := if_neg hb
    have hw' : ∀ a ∈ withoutEffectOnText e.args, a ∈ [b! "-plt", b! "-debugdump", b! "-dont_mask_filenames", b! "-nocompat"] := by
      rw [hw]; split
      · intro a ha
        simp only [List.mem_cons, List.not_mem_nil, or_false] at ha ⊢
        rcases ha with ha | ha | ha <;> simp [ha]
      · exact fun _ h => h
    have hsw' : ∀ a, a ∈ switches → a ∉ [b! "-plt", b! "-debugdump", b! "-dont_mask_filenames", b! "-nocompat"] → decide (a ∈ e.args) = decide (a ∈ args) :=
      fun a h1 h2 => hsw a h1 fun h => h2 (hw' a h)
    have s1 := hsw' b! "-binary" (by decide +kernel) (by decide +kernel)
    have s2 := hsw' b! "-unused_labels" (by decide +kernel) (by decide +kernel)
    have s3 := hsw' b! "-library_functions" (by decide +kernel) (by decide +kernel)
    have s6 := hsw' b! "-outputtext" (by decide +kernel) (by decide +kernel)
    have s7 := hsw' b! "-stdin" (by decide +kernel) (by decide +kernel)
    have s8 := hsw' b! "-directives" (by decide +kernel) (by decide +kernel)
    have s9 := hsw' b! "-comment_only" (by decide +kernel) (by decide +kernel)
    have s10 := hsw' b! "-whitespace" (by decide +kernel) (by decide +kernel)
    have hx : (requestedFilter e.args).binary = false := by simpa [requestedFilter] using hb
    have hy : (requestedFilter args).binary = false := by rw [← hx]; exact s1.symm
    have s5' : (requestedFilter e.args).compatmode = (requestedFilter args).compatmode ∨ (requestedFilter e.args).directives = false := by
      by_cases hd : b! "-directives" ∈ e.args
      · left
        show decide (¬ _) = decide (¬ _)
        rw [decide_not, decide_not, hsw b! "-nocompat" (by decide +kernel) (by rw [hw, if_pos hd]; decide +kernel)]
      · right; simpa [requestedFilter] using hd
    rw [hx, hy, ← s6, ← s7, ← hfile]
    simp only [Bool.false_eq_true, if_false, ht, decide_true, if_true]
    split
    · rfl
    · split
      · rfl
      · obtain ⟨k1, k2⟩ := C101_text e.L (requestedFilter e.args) (requestedFilter args)
          (if (!decide (b! "-stdin" ∈ e.args)) = true then e.file ((requestedFile e.args).getD []) else e.stdin) e.order n [] s3 s8 s9 s10 s2 s5'
        cases hr : (TParser.init (requestedFilter e.args)).fromStream e.L e.order n
            (if (!decide (b! "-stdin" ∈ e.args)) = true then e.file ((requestedFile e.args).getD []) else e.stdin) [] with
        | none => rw [k1.1 hr]
        | some r =>
          obtain ⟨q, hq, -, h4, -⟩ := k2 r.1 r.2 hr
          rw [hq]
          simp only [Option.map_some, h4]

/-- Some options of a call are superfluous. -/
example (e : Env) (n : Nat) :
    mainProgram { e with args := [b! "-binary", b! "-directives", b! "-plt", b! "-comment_only", b! "a.out.txt"] } n =
    mainProgram { e with args := [b! "-binary", b! "-plt", b! "a.out.txt"] } n := by
  refine C101_program { e with args := [b! "-binary", b! "-plt", b! "a.out.txt"] } _ n ?_
  show SameBut (withoutEffect [b! "-binary", b! "-plt", b! "a.out.txt"]) [b! "-binary", b! "-plt", b! "a.out.txt"]
    [b! "-binary", b! "-directives", b! "-plt", b! "-comment_only", b! "a.out.txt"]
  unfold SameBut
  decide +kernel

example (e : Env) (n : Nat) :
    mainProgram { e with args := [b! "-stdin", b! "-directives", b! "-plt", b! "-debugdump"] } n =
    mainProgram { e with args := [b! "-directives", b! "-stdin"] } n := by
  refine C101_program { e with args := [b! "-directives", b! "-stdin"] } _ n ?_
  show SameBut (withoutEffect [b! "-directives", b! "-stdin"]) [b! "-directives", b! "-stdin"] [b! "-stdin", b! "-directives", b! "-plt", b! "-debugdump"]
  unfold SameBut
  decide +kernel

/-- The mode of compatibility matters for text only together with `-directives`. -/
example : SameBut (withoutEffectOnText [b! "-outputtext", b! "a.s"]) [b! "-outputtext", b! "a.s"] [b! "-nocompat", b! "-outputtext", b! "a.s"] ∧
    ¬ SameBut (withoutEffectOnText [b! "-directives", b! "-outputtext", b! "a.s"]) [b! "-directives", b! "-outputtext", b! "a.s"]
      [b! "-nocompat", b! "-directives", b! "-outputtext", b! "a.s"] := by
  unfold SameBut
  decide +kernel

end AsmParser
