/-
Property C108: the JSON document if exported functions are looked at first.
-/
import Verif.Props.CompiledLeftJson
import Verif.Props.First

namespace AsmParser

attribute [local irreducible] Re.search Re.fullMatch

/-- C108: the JSON document for the assembly code that a compiler writes if the exported labels come first: as in C105, with all exported
labels found in use. -/
theorem C108_document (L : Locale) (hL : L.Ascii) (f : Filter) (hf : CompiledFilter f) (xs : List CLine) (hx : ∀ x ∈ xs, x.Wf)
    (ht : ∀ x ∈ xs, x.Tidy) (hd : (labelNames xs).Nodup)
    (hc : f.compatmode = true → ∀ x ∈ xs, x.isLabel = true → ¬ StartsWithOneOf dataDirectives x.text)
    (hs : PlainText (unlines (xs.map CLine.render)))
    (o : Order) (ho : ComesFirst o (· ∈ labelNames xs) (Global xs)) (n : Nat) (v v' : List Str) (hv : ∀ a ∈ v, ¬ Global xs a) (p : TParser) (time : Int)
    (h : (TParser.init f).fromStream L o n (unlines (xs.map CLine.render)) v = some (p, v')) :
    ∃ x : Found, x.Reasons xs ∧ (∀ a ∈ labelNames xs, Global xs a → a ∈ x.used) ∧
      readJson (p.outputJson time) = some (leftJson f time x xs) := by
  letI := recognizers
  obtain ⟨ys, hseen, -, sub, same, hin⟩ := compiled_seen hf hx
  have hy : ∀ y ∈ ys, y.Wf := fun y hm => hx y (sub.subset hm)
  have hdata : DataWithoutLabels f (ys.map CLine.seen) := by
    intro h1 _ t ht hs a ha
    obtain ⟨y, hm, rfl⟩ := List.mem_map.1 ht
    obtain ⟨nt, rfl⟩ := (defines_iff (hy y hm)).1 ha
    exact hc h1 _ (sub.subset hm) rfl hs
  obtain ⟨x, ms, hused, hsound, k4, k5, k6⟩ := compiled_first L hf hx ho hv h
  obtain ⟨zs, z1, z2, z3, z4, z5⟩ := numbered_result (x := x) k4 k5 k6 (by rw [hseen]; exact hdata)
  refine ⟨x, reasons_of hy sub same (by rw [← hseen]; exact hsound), hused, ?_⟩
  rw [C20_text L f _ p time ⟨o, n, v, v', h⟩ hs]
  exact congrArg some (left_document (compiled_marked_of L hL f hf xs hx ht hd hc p ⟨o, n, v, v', h⟩ z1 z2
    (fun l k hm => ⟨z3 _ hm, z5.shown ⟨o, n, v, v', h⟩ l k hm⟩) z4))

/-- C108 for the JSON output of the program. -/
theorem C108_json_program (e : Env) (hL : e.L.Ascii) (xs : List CLine) (hx : ∀ x ∈ xs, x.Wf) (ht : ∀ x ∈ xs, x.Tidy)
    (hin : requestedInput e = unlines (xs.map CLine.render)) (hs : PlainText (requestedInput e))
    (hl : e.localeOk = true) (hi : hasInput e.args) (h2 : b! "-directives" ∈ e.args) (h3 : b! "-comment_only" ∈ e.args)
    (h4 : ∀ a ∈ [b! "-outputtext", b! "-binary", b! "-library_functions", b! "-whitespace"], a ∉ e.args)
    (hd : (labelNames xs).Nodup)
    (hc : b! "-nocompat" ∉ e.args → ∀ x ∈ xs, x.isLabel = true → ¬ StartsWithOneOf dataDirectives x.text)
    (ho : ComesFirst e.order (· ∈ labelNames xs) (Global xs)) (n : Nat) (r : Result) (h : mainProgram e n = some r) :
    r.exit = 0 ∧ ∃ x : Found, x.Reasons xs ∧ (∀ a ∈ labelNames xs, Global xs a → a ∈ x.used) ∧
      readJson r.stdout = some (leftJson (requestedFilter e.args) e.time x xs) := by
  have hf : CompiledFilter (requestedFilter e.args) :=
    ⟨by simp [requestedFilter, h2], by simp [requestedFilter, h3],
     by simpa [requestedFilter] using h4 b! "-library_functions" (by simp), by simpa [requestedFilter] using h4 b! "-whitespace" (by simp)⟩
  obtain ⟨h0, p, v', hp, k1, -⟩ := C48_run e n hl hi (h4 b! "-binary" (by simp)) r h
  rw [if_neg (h4 b! "-outputtext" (by simp))] at k1
  rw [hin] at hp hs
  obtain ⟨x, g1, g2, g3⟩ := C108_document e.L hL _ hf xs hx ht hd (fun hc' => hc (by simpa [requestedFilter] using hc')) hs _ ho n [] v' (by simp) p e.time hp
  exact ⟨h0, x, g1, g2, by rw [k1]; exact g3⟩

/-- The other hypotheses hold for the sample. -/
example : (∀ x ∈ firstSample, x.Tidy) ∧ PlainText (unlines (firstSample.map CLine.render)) := by
  refine ⟨?_, by unfold PlainText; decide +kernel⟩
  unfold firstSample firstBody
  simp only [List.cons_append, List.nil_append, List.append_nil, List.forall_mem_cons]
  refine ⟨?_, ?_, ?_, ?_, ?_, ?_, fun x hx => by cases hx⟩
  all_goals unfold CLine.Tidy
  all_goals decide

end AsmParser
