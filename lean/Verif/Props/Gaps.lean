/-
C93: empty lines do not influence the other lines in text mode.
-/
import Verif.Proofs.Gaps
import Verif.Proofs.Recognize
import Verif.Proofs.MoreFilters
import Verif.Props.TextMode
import Verif.Spec.Gaps

namespace AsmParser

attribute [local irreducible] Re.search Re.fullMatch

theorem inkedLines_filled (p : TParser) : inkedLines p = (filled p.lines).map TLine.toAsm := by
  unfold inkedLines filled
  rw [List.filter_map, List.map_map, List.map_map]
  congr 1
  funext l
  show (if l.isLabel then _ else _) = l.plain.toAsm
  unfold TLine.plain TLine.toAsm
  cases l.isLabel <;> rfl

theorem dataApart_read (L : Locale) (f : Filter) (s s' : Str) (h : inked (inputLines s) = inked (inputLines s'))
    (hd : f.compatmode = true → f.directives = true → ∀ line ∈ inputLines s, ¬ DataLabel f line) :
    DataApart f ((TParser.init f).readStream L s').lines := by
  intro hc hdir l hl hlab
  rw [Bool.eq_false_iff]
  intro hdat
  rcases read_line L f s' hl with h' | h'
  · have : l.isLabel = false := (congrArg TLine.isLabel h' :)
    rw [hlab] at this
    cases this
  · obtain ⟨n, ws, raw, a1, a2, a3, a4, -, -⟩ := h'.raw
    have hraw : raw ∈ inked (inputLines s) := by
      rw [h]
      refine List.mem_filter.2 ⟨a2, ?_⟩
      rw [decide_eq_true_eq]
      rintro rfl
      exact a3 rfl
    rcases h'.label with ⟨-, c, hg⟩ | ⟨hx, -⟩
    · obtain ⟨sp, t', k1, k2, k3, k4, -⟩ := lineText_shown f n (ws ++ raw)
      refine hd hc hdir raw (List.mem_filter.1 hraw).1 ⟨l.text, decide (0 < n), l.label, ⟨ws, sp, t', a1, k1, k2, by simpa using k3, ?_⟩, (isDataDefn_iff _).1 (h'.data hdat), getLabelFromLine_defines hg⟩
      rw [a4]
      exact k4
    · rw [hlab] at hx
      cases hx

theorem fromStream_library (L : Locale) (f : Filter) (hl : f.libraryFunctions = true) (o : Order) (n : Nat) (s v : _) :
    ∃ p, (TParser.init f).fromStream L o n s v = some (p, v) ∧ p.lines = [] := by
  obtain ⟨_, _, i⟩ := textInv L f s
  unfold TParser.fromStream
  generalize (TParser.init f).readStream L s = a at *
  have h0 : a.labelsDefined = [] := by
    cases ht : a.labelsDefined with
    | nil => rfl
    | cons e t =>
      obtain ⟨-, l, h, -⟩ := i.table.sound e (by simp [ht])
      rw [i.lib hl] at h
      simp at h
  have h1 : o.run .labels (a.filterNonLabels.labelsDefined.map (·.1)) = [] := by
    have : a.filterNonLabels.labelsDefined = [] := h0
    rw [this]
    exact (o.perm .labels []).eq_nil
  have h2 : a.filterNonLabels.markLabelUsage o n v = some (a.filterNonLabels, v) := by
    unfold TParser.markLabelUsage
    rw [h1]
    rfl
  rw [h2]
  refine ⟨_, rfl, ?_⟩
  show (a.filterNonLabels.removeLoop {} a.lines).1 = []
  rw [i.lib hl]
  rfl

theorem inked_filter (ls : List TLine) : inked (ls.map TLine.text) = (filled ls).map TLine.text := by
  unfold inked filled
  rw [List.filter_map, List.map_map]
  rfl

/-- C93 (partial): let two inputs have the same non-empty lines in the same order.  For all filters, every run on the one corresponds
to a run on the other (with the same iteration orders, the same bound for the recursion and the same `visited` set before and after),
and the results have the same non-empty lines in the same order, with the same text, references, flags, section and, except for labels,
the same source position.  In the compatibility mode with `directives` this is only shown if no line looks like data and defines a
label.  Missing: the source position of labels (see `C93_violation_label`) and such lines (see `C93_violation_data`). -/
theorem C93_gaps_partial (L : Locale) (f : Filter) (s s' : Str) (h : inked (inputLines s) = inked (inputLines s'))
    (hd : f.compatmode = true → f.directives = true → ∀ line ∈ inputLines s, ¬ DataLabel f line)
    (o : Order) (n : Nat) (v : List Str) (p : TParser) (v' : List Str) (hp : (TParser.init f).fromStream L o n s v = some (p, v')) :
    ∃ p', (TParser.init f).fromStream L o n s' v = some (p', v') ∧ inkedLines p' = inkedLines p ∧
      inked (p'.lines.map TLine.text) = inked (p.lines.map TLine.text) := by
  cases hl : f.libraryFunctions with
  | false =>
    obtain ⟨p', h1, h2⟩ := fromStream_filled L hl h (dataApart_read L f s s rfl hd) (dataApart_read L f s s' h hd) o n v hp
    refine ⟨p', h1, ?_, ?_⟩
    · rw [inkedLines_filled, inkedLines_filled, h2]
    · rw [inked_filter, inked_filter, h2]
  | true =>
    obtain ⟨q, h1, h2⟩ := fromStream_library L f hl o n s v
    obtain ⟨q', h1', h2'⟩ := fromStream_library L f hl o n s' v
    rw [h1] at hp
    simp only [Option.some.injEq, Prod.mk.injEq] at hp
    obtain ⟨rfl, rfl⟩ := hp
    refine ⟨q', h1', ?_, ?_⟩
    · unfold inkedLines; rw [h2, h2']
    · rw [h2, h2']

/-- A program, an unused function included. -/
def gapSample : Str :=
  b! "\t.globl f\n" ++ b! "\t.globl g\n" ++ b! "f:\n" ++ b! "\n\n" ++ b! "\tcall g\n" ++ b! "\n" ++ b! "h:\n" ++ b! "\n" ++ b! "\tnop\n" ++ b! "g:\n" ++ b! "\tret"

/-- The same with other empty lines. -/
def gapSample2 : Str :=
  b! "\n" ++ b! "\t.globl f\n" ++ b! "\t.globl g\n" ++ b! "f:\n" ++ b! "\tcall g\n" ++ b! "h:\n" ++ b! "\tnop\n" ++ b! "\n" ++ b! "g:\n" ++ b! "\tret\n\n"

example : inked (inputLines gapSample) = inked (inputLines gapSample2) := by decide +kernel

example : (textRun { unusedLabels := true, directives := true, commentOnly := true } gapSample).map (·.lines.map TLine.text) =
    some [b! "f:", [], b! "        call g", [], b! "g:", b! "        ret"] := by decide +kernel

example : (textRun { unusedLabels := true, directives := true, commentOnly := true } gapSample2).map (·.lines.map TLine.text) =
    some [b! "f:", b! "        call g", b! "g:", b! "        ret", []] := by decide +kernel

/-- C93 is false for the source position of labels: an empty line after the label changes it. -/
theorem C93_violation_label : ∃ p p',
    TextResult Locale.utf8 {} (b! "\t.file 1 \"a.c\"\n" ++ b! "foo: ret\n" ++ b! "\t.loc 1 5\n") p ∧
    TextResult Locale.utf8 {} (b! "\t.file 1 \"a.c\"\n" ++ b! "foo: ret\n" ++ b! "\n" ++ b! "\t.loc 1 5\n") p' ∧
    p.lines.map (fun l => (l.text, l.source.line)) = [(b! "        .file 1 \"a.c\"", 0), (b! "foo: ret", 5), (b! "        .loc 1 5", 5)] ∧
    p'.lines.map (fun l => (l.text, l.source.line)) = [(b! "        .file 1 \"a.c\"", 0), (b! "foo: ret", 0), ([], 0), (b! "        .loc 1 5", 5)] := by
  obtain ⟨p, h1, h2⟩ := textRun_exists (f := {}) (s := b! "\t.file 1 \"a.c\"\n" ++ b! "foo: ret\n" ++ b! "\t.loc 1 5\n")
    (P := fun p => p.lines.map (fun l => (l.text, l.source.line)) = [(b! "        .file 1 \"a.c\"", 0), (b! "foo: ret", 5), (b! "        .loc 1 5", 5)]) (by decide +kernel)
  obtain ⟨p', h1', h2'⟩ := textRun_exists (f := {}) (s := b! "\t.file 1 \"a.c\"\n" ++ b! "foo: ret\n" ++ b! "\n" ++ b! "\t.loc 1 5\n")
    (P := fun p => p.lines.map (fun l => (l.text, l.source.line)) = [(b! "        .file 1 \"a.c\"", 0), (b! "foo: ret", 0), ([], 0), (b! "        .loc 1 5", 5)]) (by decide +kernel)
  exact ⟨p, p', h1, h1', h2, h2'⟩

/-- C93 is false for labels in the compatibility mode: with `directives`, the label `.byte_table` is shown only if no empty line follows. -/
theorem C93_violation_data : ∃ p p',
    TextResult Locale.utf8 { compatmode := true, directives := true } (b! ".byte_table:\n" ++ b! "\t.loc 1 5\n" ++ b! "\tnop\n") p ∧
    TextResult Locale.utf8 { compatmode := true, directives := true } (b! ".byte_table:\n" ++ b! "\n" ++ b! "\t.loc 1 5\n" ++ b! "\tnop\n") p' ∧
    inked (p.lines.map TLine.text) = [b! ".byte_table:", b! "        nop"] ∧ inked (p'.lines.map TLine.text) = [b! "        nop"] := by
  obtain ⟨p, h1, h2⟩ := textRun_exists (f := { compatmode := true, directives := true })
    (s := b! ".byte_table:\n" ++ b! "\t.loc 1 5\n" ++ b! "\tnop\n")
    (P := fun p => inked (p.lines.map TLine.text) = [b! ".byte_table:", b! "        nop"]) (by decide +kernel)
  obtain ⟨p', h1', h2'⟩ := textRun_exists (f := { compatmode := true, directives := true })
    (s := b! ".byte_table:\n" ++ b! "\n" ++ b! "\t.loc 1 5\n" ++ b! "\tnop\n")
    (P := fun p => inked (p.lines.map TLine.text) = [b! "        nop"]) (by decide +kernel)
  exact ⟨p, p', h1, h1', h2, h2'⟩

end AsmParser
