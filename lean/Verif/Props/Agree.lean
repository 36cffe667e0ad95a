/-
Property C81: the JSON output and the text output show the same lines.
-/
import Verif.Props.Program

namespace AsmParser

attribute [local irreducible] Re.search Re.fullMatch

/-- A string value. -/
def JVal.string? : JVal → Option Str
  | .str s => some s
  | _ => none

/-- The member `text` of each element of the member `asm`. -/
def JVal.texts (j : JVal) : Option (List (Option Str)) :=
  (j.get b! "asm").map fun a => a.elems.map fun v => (v.get b! "text").bind JVal.string?

/-- What the program prints depends on the option `-outputtext` only in the format: the lines are the same. -/
theorem texts_document (f : Filter) (ls : List AsmLine) (labels : List LabelPair) (time : Option Int) (dropped : Int) :
    (documentJson f ls labels time dropped).texts = some (ls.map fun l => some l.text) := by
  have h : ∀ l : AsmLine, ((lineJson f.compatmode (!f.dontMaskFilenames) l).get b! "text").bind JVal.string? = some l.text := by
    intro l
    have hne : ∀ k, k ≠ b! "text" → ∀ (x : JVal) r, List.lookup b! "text" ([(k, x)] ++ r) = List.lookup b! "text" r := by
      intro k hk x r
      have : (b! "text" == k) = false := by simpa using fun h => hk h.symm
      simp only [List.cons_append, List.nil_append, List.lookup, this]
    simp only [lineJson, JVal.get]
    rw [List.append_assoc, List.append_assoc, List.append_assoc, List.append_assoc, hne _ (by decide)]
    have h1 : ∀ r, List.lookup b! "text" ((if l.opcodes = [] then [] else [(b! "opcodes", JVal.arr (l.opcodes.map .str))]) ++ r) =
        List.lookup b! "text" r := by
      intro r
      split
      · rfl
      · exact hne _ (by decide) _ _
    have h2 : ∀ (o : Option Int) r, List.lookup b! "text" (optNum b! "address" o ++ r) = List.lookup b! "text" r := by
      intro o r
      cases o with
      | none => rfl
      | some z => exact hne _ (by decide) _ _
    have h3 : ∀ r, List.lookup b! "text" ((if l.sect = [] ∨ f.compatmode = true then [] else [(b! "section", JVal.str l.sect)]) ++ r) =
        List.lookup b! "text" r := by
      intro r
      split
      · rfl
      · exact hne _ (by decide) _ _
    rw [h1, h2, hne _ (by decide), h3]
    rfl
  simp only [JVal.texts, documentJson, JVal.get]
  rw [show List.lookup b! "asm" _ = some (JVal.arr (ls.map (lineJson f.compatmode (!f.dontMaskFilenames)))) from rfl]
  simp only [Option.map_some, JVal.elems, List.map_map]
  exact congrArg some (List.map_congr_left fun l _ => h l)

/-! ### C81 -/

/-- C81: if a run of the program with the option `-outputtext` and a run without it, otherwise with the same arguments, on the same
input end, then the first one prints, line by line, the texts that the JSON document of the second one lists.  The input contains no
control characters other than tab and line ends, and, in binary mode, no tab directly behind a hexadecimal digit (for other inputs
the JSON output need not be well-formed, see C20). -/
theorem C81_same_lines (e : Env) (as bs : List Str) (n m : Nat) (r r' : Result) (ho : b! "-outputtext" ∉ as ++ bs)
    (h : mainProgram { e with args := as ++ bs } n = some r)
    (h' : mainProgram { e with args := as ++ b! "-outputtext" :: bs } m = some r') (h0 : r.exit = 0)
    (hs : PlainText (requestedInput { e with args := as ++ bs }))
    (ht : b! "-binary" ∈ as ++ bs → ∀ d, isHex d = true → ¬ [d, 9] <:+: requestedInput { e with args := as ++ bs }) :
    ∃ j ts, readJson r.stdout = some j ∧ j.texts = some (ts.map some) ∧ r'.exit = 0 ∧ r'.stdout = unlines ts := by
  have hsw : ∀ a, a ≠ b! "-outputtext" → (a ∈ as ++ b! "-outputtext" :: bs ↔ a ∈ as ++ bs) := by
    intro a ha
    simp [ha]
  have hfile : requestedFile (as ++ b! "-outputtext" :: bs) = requestedFile (as ++ bs) := by
    unfold requestedFile
    rw [List.filter_append, List.filter_append, List.filter_cons_of_neg (by decide)]
  have hf : requestedFilter (as ++ b! "-outputtext" :: bs) = requestedFilter (as ++ bs) := by
    unfold requestedFilter
    simp only [hsw _ (show b! "-binary" ≠ b! "-outputtext" by decide), hsw _ (show b! "-unused_labels" ≠ b! "-outputtext" by decide),
      hsw _ (show b! "-library_functions" ≠ b! "-outputtext" by decide), hsw _ (show b! "-directives" ≠ b! "-outputtext" by decide),
      hsw _ (show b! "-comment_only" ≠ b! "-outputtext" by decide), hsw _ (show b! "-whitespace" ≠ b! "-outputtext" by decide),
      hsw _ (show b! "-plt" ≠ b! "-outputtext" by decide), hsw _ (show b! "-dont_mask_filenames" ≠ b! "-outputtext" by decide),
      hsw _ (show b! "-nocompat" ≠ b! "-outputtext" by decide)]
  have hstd := hsw _ (show b! "-stdin" ≠ b! "-outputtext" by decide)
  have hbin := hsw _ (show b! "-binary" ≠ b! "-outputtext" by decide)
  have hin : requestedInput { e with args := as ++ b! "-outputtext" :: bs } = requestedInput { e with args := as ++ bs } := by
    simp only [requestedInput, hstd, hfile]
  obtain ⟨hl, hi⟩ := (C48_exit _ _ _ h).2.1 h0
  have hi' : hasInput (as ++ b! "-outputtext" :: bs) := by
    unfold hasInput at hi ⊢
    rw [hstd, hfile]
    exact hi
  have hot : b! "-outputtext" ∈ as ++ b! "-outputtext" :: bs := by simp
  have h0' : r'.exit = 0 := (C48_exit _ _ _ h').2.2 ⟨hl, hi'⟩
  by_cases hb : b! "-binary" ∈ as ++ bs
  · have h1 := C48_binary { e with args := as ++ bs } n hl hi hb
    have h2 := C48_binary { e with args := as ++ b! "-outputtext" :: bs } m hl hi' (hbin.2 hb)
    rw [h, if_neg ho, Option.some.injEq] at h1
    rw [h', if_pos hot, Option.some.injEq, hf, hin] at h2
    subst h1 h2
    refine ⟨_, (objParse e.L (requestedFilter (as ++ bs)) (requestedInput { e with args := as ++ bs })).lines.map (·.text),
      C20_binary e.L _ _ e.time (fun c hc => ?_) (fun d hd hin => ?_), ?_, rfl, ?_⟩
    · rcases hs c hc with h | h | h
      · exact .inl h
      · exact .inr (.inl h)
      · exact .inr (.inr (.inl h))
    · refine ht hb d hd ?_
      rwa [List.filter_eq_self.2] at hin
      intro c hc
      rcases hs c hc with h | h | h
      · rw [bne_iff_ne]; rintro rfl; exact absurd h (by decide)
      · subst h; decide
      · subst h; decide
    · rw [texts_document, List.map_map]; rfl
    · rw [unlines, List.flatMap_map]; rfl
  · have hb' : b! "-binary" ∉ as ++ b! "-outputtext" :: bs := fun hx => hb (hbin.1 hx)
    have key : ∃ p, TextResult e.L (requestedFilter (as ++ bs)) (requestedInput { e with args := as ++ bs }) p ∧
        r.stdout = p.outputJson e.time ∧ r'.stdout = p.outputText := by
      have hl : e.localeOk = true := hl
      obtain ⟨c1, c2, c3, c4, c5, c6⟩ := C47_switches (as ++ bs)
      obtain ⟨d1, d2, d3, d4, d5, d6⟩ := C47_switches (as ++ b! "-outputtext" :: bs)
      unfold mainProgram at h h'
      simp only [hl, c1, c2, c3, c4, c5, c6.2 hi] at h
      simp only [hl, d1, d2, d3, d4, d5, d6.2 hi', hf, hfile, hstd, hot] at h'
      rw [if_neg (by simp), if_neg (by simp), if_neg (by simpa [requestedFilter] using hb)] at h
      rw [if_neg (by simp), if_neg (by simp), if_neg (by simpa [requestedFilter] using hb)] at h'
      have hin : (if (!decide (b! "-stdin" ∈ as ++ bs)) = true then e.file ((requestedFile (as ++ bs)).getD []) else e.stdin) =
          requestedInput { e with args := as ++ bs } := by
        unfold requestedInput
        by_cases h1 : b! "-stdin" ∈ as ++ bs <;> simp [h1]
      rw [hin] at h h'
      cases hp : (TParser.init (requestedFilter (as ++ bs))).fromStream e.L e.order n (requestedInput { e with args := as ++ bs }) [] with
      | none => rw [hp] at h; simp at h
      | some q =>
        cases hq : (TParser.init (requestedFilter (as ++ bs))).fromStream e.L e.order m (requestedInput { e with args := as ++ bs }) [] with
        | none => rw [hq] at h'; simp at h'
        | some q' =>
          cases fromStream_fuel hp hq
          rw [hp] at h
          rw [hq] at h'
          simp only [Option.some.injEq] at h h'
          subst h h'
          exact ⟨q.1, ⟨e.order, n, [], q.2, hp⟩, by simp only [ho]; simp, by simp⟩
    obtain ⟨p, hp, e1, e2⟩ := key
    refine ⟨_, p.lines.map (·.text), by rw [e1]; exact C20_text _ _ _ p e.time hp hs, ?_, h0', ?_⟩
    · rw [texts_document, List.map_map, List.map_map]; rfl
    · rw [e2, unlines, List.flatMap_map]; rfl

/-- The hypotheses are met by a run in text mode. -/
example : ∃ r r', mainProgram { sampleEnv [] sampleCall with args := [b! "-directives", b! "-stdin"] ++ [b! "-unused_labels"] } 30 = some r ∧
    mainProgram { sampleEnv [] sampleCall with args := [b! "-directives", b! "-stdin"] ++ b! "-outputtext" :: [b! "-unused_labels"] } 30 = some r' ∧
    r.exit = 0 ∧ PlainText (requestedInput (sampleEnv ([b! "-directives", b! "-stdin"] ++ [b! "-unused_labels"]) sampleCall)) ∧
    r'.stdout = b! "main:\n jmp .L2\n ret\n" := by
  let r := mainProgram { sampleEnv [] sampleCall with args := [b! "-directives", b! "-stdin"] ++ [b! "-unused_labels"] } 30
  let r' := mainProgram { sampleEnv [] sampleCall with args := [b! "-directives", b! "-stdin"] ++ b! "-outputtext" :: [b! "-unused_labels"] } 30
  refine ⟨r.get (by decide +kernel), r'.get (by decide +kernel), (Option.some_get _).symm, (Option.some_get _).symm, by decide +kernel, ?_,
    by decide +kernel⟩
  unfold PlainText; decide +kernel

end AsmParser
