/-
Property C108: exported functions are not lost if they are looked at first.
-/
import Verif.Proofs.First
import Verif.Props.CompiledUse

namespace AsmParser

attribute [local irreducible] Re.search Re.fullMatch

/-- When the iteration order `o` runs over the labels that are defined (those with `D`), those with `G` come before all others. -/
def ComesFirst (o : Order) (D G : Str → Prop) : Prop :=
  ∀ names us a ws, names.Nodup → (∀ b, b ∈ names ↔ D b) → o.run .labels names = us ++ a :: ws → G a → ∀ b ∈ us, G b

/-- There is such an order, for any labels. -/
theorem comesFirst_exists (D G : Str → Prop) : ∃ o : Order, ComesFirst o D G := by
  classical
  refine ⟨⟨fun _ l => l.filter (fun a => decide (G a)) ++ l.filter (fun a => !decide (G a)), fun _ l => List.filter_append_perm _ l⟩, ?_⟩
  intro names us a ws _ _ e hg b hb
  rcases List.append_eq_append_iff.1 e with ⟨z, e1, e2⟩ | ⟨z, e1, e2⟩
  · have : a ∈ names.filter (fun a => !decide (G a)) := by rw [e2]; simp
    have := (List.mem_filter.1 this).2
    simp [hg] at this
  · have : b ∈ names.filter (fun a => decide (G a)) := by rw [e1]; simp [hb]
    simpa using (List.mem_filter.1 this).2

section
variable [Recognizers]

/-- Exported labels that come first are found in use. -/
theorem first_marks (L : Locale) (f : Filter) (s : Str) {o : Order} {n : Nat} {v v' : List Str} {p : TParser}
    (h : (TParser.init f).fromStream L o n s v = some (p, v')) {G : Str → Prop} (hG : ∀ a, G a → Exported (seen f s) a)
    (ho : ComesFirst o (Defined (seen f s)) G) (hv : ∀ a ∈ v, ¬ G a) :
    ∃ (x : Found) (ms : List TLine), (∀ a, Defined (seen f s) a → G a → a ∈ x.used) ∧ x.Sound (seen f s) ∧
      ms.map TLine.noUse = (heldLines L f s).map TLine.noUse ∧
      (∀ w l y, ms = w ++ l :: y → (l.isUsed = true ↔ MarkedIn x.used l y) ∧ (l.isUsedThroughAlias = true ↔ MarkedIn x.aliases l y) ∧
        (l.isUsedDataThroughAlias = true ↔ MarkedIn x.dataAliases l y)) ∧
      ∀ drop : List TLine → TLine → Bool, (∀ b l, drop b l = true ↔ Removed f b l) →
        p.lines = (remaining drop [] ms).map p.finishKept := by
  have hkeys : ∀ a, a ∈ ((TParser.init f).readStream L s).labelsDefined.map (·.1) ↔ Defined (seen f s) a := by
    intro a
    rw [show Defined (seen f s) a ↔ _ from (C65_defined L f s a).symm, List.mem_map]
    exact ⟨fun ⟨⟨x, k⟩, h1, h2⟩ => ⟨k, h2 ▸ h1⟩, fun ⟨k, h⟩ => ⟨_, h, rfl⟩⟩
  have hnd : (((TParser.init f).readStream L s).labelsDefined.map (·.1)).Nodup := (C43_label_positions L f s).2.2.1
  obtain ⟨us, as, ds, ms, h1, ⟨r1, r2, r3⟩, h4⟩ := result_first h (G := G) (fun a hg => (C65_exported L f s a).2 (hG a hg))
    (fun us a ws e hg b hb => ho _ us a ws hnd hkeys e hg b hb) hv
  refine ⟨⟨us, as, ds⟩, ms, fun a ha hg => h1 a ((hkeys a).2 ha) hg, ⟨?_, ?_, ?_⟩, h4⟩
  · exact fun a ha => (C65_reachable L f s a).1 (r1 a ha)
  · intro a ha
    obtain ⟨b, hb, hr⟩ := r2 a ha
    exact ⟨b, (C65_same_address L f s _ _).1 hb, (C65_reachable L f s b).1 hr⟩
  · intro a ha
    obtain ⟨r, b, hr, hb, hu⟩ := r3 a ha
    exact ⟨r, b, (C65_data L f s _ _).1 hr, (C65_same_address L f s _ _).1 hb, (C65_reachable L f s b).1 hu⟩

/-- C108: if the order in which the labels are looked at begins with exported labels, all of these are kept, whatever their code
mentions and whatever else is in the input. -/
theorem C108_kept (L : Locale) (f : Filter) (s : Str) (o : Order) (n : Nat) (v v' : List Str) (p : TParser)
    (h : (TParser.init f).fromStream L o n s v = some (p, v')) (G : Str → Prop) (hG : ∀ a, G a → Exported (seen f s) a)
    (ho : ComesFirst o (Defined (seen f s)) G) (hv : ∀ a ∈ v, ¬ G a) (a : Str) (ha : Defined (seen f s) a) (hg : G a) :
    ∃ l ∈ p.lines, l.isLabel = true ∧ l.label = a := by
  obtain ⟨x, ms, h1, -, h4, h5, h6⟩ := first_marks L f s h hG ho hv
  refine marked_label ha h4 (fun x l y e => (h5 x l y e).1) (fun drop hd => ?_) (h1 a ha hg)
  rw [h6 drop hd, List.map_map]
  exact List.map_congr_left fun l _ => finishKept_core _ l

/-- C108: and so is their code, i.e. every line below such a label that is neither a label nor data, up to the next label that is
neither compiler-generated nor in inline assembly. -/
theorem C108_body (L : Locale) (f : Filter) (s : Str) (o : Order) (n : Nat) (v v' : List Str) (p : TParser)
    (h : (TParser.init f).fromStream L o n s v = some (p, v')) (G : Str → Prop) (hG : ∀ a, G a → Exported (seen f s) a)
    (ho : ComesFirst o (Defined (seen f s)) G) (hv : ∀ a ∈ v, ¬ G a) (a : Str) (hg : G a)
    (x body rest : List TLine) (l : TLine) (hh : heldLines L f s = x ++ l :: body ++ rest) (hl : l.isLabel = true ∧ l.label = a)
    (hlast : ∀ y ∈ body ++ rest, y.isLabel = true → y.label ≠ a)
    (hbody : ∀ y ∈ body, y.isLabel = true → y.isInternalLabel = true ∨ y.isInlineAsm = true) :
    ∀ y ∈ body, y.isLabel = false → y.isData = false → y.core ∈ p.lines.map TLine.core := by
  have hdef : Defined (seen f s) a := by
    obtain ⟨e0, -, hinv⟩ := textInv L f s
    refine (C65_defined L f s a).1 ?_
    have := hinv.table.complete l (by show l ∈ heldLines L f s; rw [hh]; simp) hl.1
    obtain ⟨k, hk⟩ := Option.isSome_iff_exists.1 this
    exact ⟨k, hl.2 ▸ mem_of_lookup hk⟩
  obtain ⟨x, ms, hus, -, h4, h5, h6⟩ := first_marks L f s h hG ho hv
  exact used_body (hus a hdef hg) h4 (fun w l y e => (h5 w l y e).1) h6 hh hl hlast hbody

end

/-! ### The assembly code that a compiler writes -/

/-- The exported labels that come first are found in use. -/
theorem compiled_first [Recognizers] (L : Locale) {f : Filter} (hf : CompiledFilter f) {xs : List CLine} (hx : ∀ x ∈ xs, x.Wf)
    {o : Order} (ho : ComesFirst o (· ∈ labelNames xs) (Global xs)) {n : Nat} {v v' : List Str} (hv : ∀ a ∈ v, ¬ Global xs a) {p : TParser}
    (h : (TParser.init f).fromStream L o n (unlines (xs.map CLine.render)) v = some (p, v')) :
    ∃ (x : Found) (ms : List TLine), (∀ a ∈ labelNames xs, Global xs a → a ∈ x.used) ∧ x.Sound (seen f (unlines (xs.map CLine.render))) ∧
      ms.map TLine.noUse = (heldLines L f (unlines (xs.map CLine.render))).map TLine.noUse ∧
      (∀ w l y, ms = w ++ l :: y → (l.isUsed = true ↔ MarkedIn x.used l y) ∧ (l.isUsedThroughAlias = true ↔ MarkedIn x.aliases l y) ∧
        (l.isUsedDataThroughAlias = true ↔ MarkedIn x.dataAliases l y)) ∧
      ∀ drop : List TLine → TLine → Bool, (∀ b l, drop b l = true ↔ Removed f b l) →
        p.lines = (remaining drop [] ms).map p.finishKept := by
  obtain ⟨ys, hseen, -, sub, same, hin⟩ := compiled_seen hf hx
  have hy : ∀ y ∈ ys, y.Wf := fun y hm => hx y (sub.subset hm)
  have hexp : ∀ g, Global xs g → Exported (ys.map CLine.seen) g := by
    rintro g ⟨x, h1, h2, h3, h4⟩
    exact ⟨x.seen, List.mem_map_of_mem (hin x h1 h4), exports_directive (hx x h1) h2 h3⟩
  have hlab : ∀ g, Defined (ys.map CLine.seen) g ↔ g ∈ labelNames xs := by
    intro g
    constructor
    · rintro ⟨t, ht, hdef⟩
      obtain ⟨y, hym, rfl⟩ := List.mem_map.1 ht
      obtain ⟨nt, rfl⟩ := (defines_iff (hy y hym)).1 hdef
      exact mem_labelNames.2 ⟨nt, sub.subset hym⟩
    · intro hg
      obtain ⟨nt, hm⟩ := mem_labelNames.1 hg
      exact ⟨(CLine.label g nt).seen, List.mem_map_of_mem ((same.mem rfl).2 hm), label_defines (hx _ hm)⟩
  obtain ⟨x, ms, hused, k⟩ := first_marks L f _ h (G := Global xs) (by rw [hseen]; exact hexp)
    (by rw [hseen]; exact fun names us a ws h1 h2 => ho names us a ws h1 fun b => (h2 b).trans (hlab b)) hv
  exact ⟨x, ms, fun a ha hg => hused a (by rw [hseen]; exact (hlab a).2 ha) hg, k⟩

/-- C108 for the assembly code that a compiler writes: if the exported labels come first, they are all found in use; what is shown is as
in C103. -/
theorem C108_compiled (L : Locale) (f : Filter) (hf : CompiledFilter f) (xs : List CLine) (hx : ∀ x ∈ xs, x.Wf)
    (hd : (labelNames xs).Nodup)
    (hc : f.compatmode = true → ∀ x ∈ xs, x.isLabel = true → ¬ StartsWithOneOf dataDirectives x.text)
    (o : Order) (ho : ComesFirst o (· ∈ labelNames xs) (Global xs)) (n : Nat) (v v' : List Str) (hv : ∀ a ∈ v, ¬ Global xs a) (p : TParser)
    (h : (TParser.init f).fromStream L o n (unlines (xs.map CLine.render)) v = some (p, v')) :
    ∃ x : Found, x.Reasons xs ∧ (∀ a ∈ labelNames xs, Global xs a → a ∈ x.used) ∧
      p.lines.map TLine.text = (leftOf f.unusedLabels f.compatmode x {} xs).map CLine.text := by
  letI := recognizers
  obtain ⟨ys, hseen, -, sub, same, hin⟩ := compiled_seen hf hx
  have hy : ∀ y ∈ ys, y.Wf := fun y hm => hx y (sub.subset hm)
  have hdy : (labelNames ys).Nodup := hd.sublist (sub.filterMap _)
  have hdata : DataWithoutLabels f (ys.map CLine.seen) := by
    intro h1 _ t ht hs a ha
    obtain ⟨y, hm, rfl⟩ := List.mem_map.1 ht
    obtain ⟨nt, rfl⟩ := (defines_iff (hy y hm)).1 ha
    exact hc h1 _ (sub.subset hm) rfl hs
  obtain ⟨x, ms, hused, hsound, k4, k5, k6⟩ := compiled_first L hf hx ho hv h
  obtain ⟨zs, z1, z2, z3, z4, -⟩ := numbered_result (x := x) k4 k5 k6 (by rw [hseen]; exact hdata)
  rw [hseen] at z3 z4 hsound
  rw [compiled_filled hf hx ⟨o, n, v, v', h⟩] at z1
  exact ⟨x, reasons_of hy sub same hsound, hused,
    compiled_left hf hy same hdy hdata z1 z2 (fun z hz => (z3 z hz).imp fun t ht => ⟨ht.1, ht.2.text⟩) z4⟩

/-- C108: then an exported function is shown with its code, whatever labels it contains or mentions and whatever is right behind it. -/
theorem C108_alive (L : Locale) (f : Filter) (hf : CompiledFilter f) (before body after : List CLine) (a note : Str)
    (hx : ∀ x ∈ before ++ .label a note :: body ++ after, x.Wf) (hd : (labelNames (before ++ .label a note :: body ++ after)).Nodup)
    (hc : f.compatmode = true → ∀ x ∈ before ++ .label a note :: body ++ after, x.isLabel = true → ¬ StartsWithOneOf dataDirectives x.text)
    (ha : Global (before ++ .label a note :: body ++ after) a) (hb : NoFunction body) (o : Order)
    (ho : ComesFirst o (· ∈ labelNames (before ++ .label a note :: body ++ after)) (Global (before ++ .label a note :: body ++ after)))
    (n : Nat) (v v' : List Str) (hv : ∀ b ∈ v, ¬ Global (before ++ .label a note :: body ++ after) b) (p : TParser)
    (h : (TParser.init f).fromStream L o n (unlines ((before ++ .label a note :: body ++ after).map CLine.render)) v = some (p, v')) :
    ∃ xs bs ys : List CLine, xs.Sublist (before.filter CLine.shows) ∧ ys.Sublist (after.filter CLine.shows) ∧
      bs.Sublist (body.filter CLine.shows) ∧ bs.filter (fun l => l.shows && !l.isLabel && !(f.compatmode && l.isData)) =
        body.filter (fun l => l.shows && !l.isLabel && !(f.compatmode && l.isData)) ∧
      p.lines.map TLine.text = (xs ++ .label a note :: bs ++ ys).map CLine.text ∧
      p.outputText = unlines ((xs ++ .label a note :: bs ++ ys).map CLine.text) := by
  obtain ⟨x, -, hused, e⟩ := C108_compiled L f hf _ hx hd hc o ho n v v' hv p h
  have hu : x.isUsed a = true := by simpa [Found.isUsed] using hused a (mem_labelNames.2 ⟨note, by simp⟩) ha
  rw [List.append_assoc, leftOf_append, List.cons_append, leftOf] at e
  generalize before.foldl (Spot.after f.unusedLabels x) {} = s at e
  have r1 : (s.after f.unusedLabels x (.label a note)).removing = false := by simp [Spot.after, hu]
  have k1 : (s.after f.unusedLabels x (.label a note)).keeps f.unusedLabels f.compatmode x (.label a note) = true := by simp [Spot.keeps, hu]
  simp only [k1, if_true] at e
  rw [leftOf_append] at e
  refine ⟨leftOf f.unusedLabels f.compatmode x {} before, leftOf f.unusedLabels f.compatmode x (s.after f.unusedLabels x (.label a note)) body,
    leftOf f.unusedLabels f.compatmode x (body.foldl (Spot.after f.unusedLabels x) (s.after f.unusedLabels x (.label a note))) after, leftOf_sublist .., leftOf_sublist .., leftOf_sublist .., leftOf_kept _ _ x _ r1 body hb, ?_, ?_⟩
  · rw [e]; simp [List.append_assoc]
  · rw [outputText_unlines, e]; simp [List.append_assoc]

/-- C108 for the program: if the exported labels come first in the order of the hash table, every exported function is printed with its
code. -/
theorem C108_program (e : Env) (before body after : List CLine) (a note : Str) (hx : ∀ x ∈ before ++ .label a note :: body ++ after, x.Wf)
    (hin : requestedInput e = unlines ((before ++ .label a note :: body ++ after).map CLine.render))
    (hl : e.localeOk = true) (hi : hasInput e.args) (h1 : b! "-outputtext" ∈ e.args) (h2 : b! "-directives" ∈ e.args)
    (h3 : b! "-comment_only" ∈ e.args)
    (h5 : ∀ a ∈ [b! "-binary", b! "-library_functions", b! "-whitespace"], a ∉ e.args)
    (hd : (labelNames (before ++ .label a note :: body ++ after)).Nodup)
    (hc : b! "-nocompat" ∉ e.args → ∀ x ∈ before ++ .label a note :: body ++ after, x.isLabel = true → ¬ StartsWithOneOf dataDirectives x.text)
    (ha : Global (before ++ .label a note :: body ++ after) a) (hb : NoFunction body)
    (ho : ComesFirst e.order (· ∈ labelNames (before ++ .label a note :: body ++ after)) (Global (before ++ .label a note :: body ++ after)))
    (n : Nat) (r : Result) (h : mainProgram e n = some r) :
    r.exit = 0 ∧ ∃ xs bs ys : List CLine, xs.Sublist (before.filter CLine.shows) ∧ ys.Sublist (after.filter CLine.shows) ∧
      bs.Sublist (body.filter CLine.shows) ∧
      (∀ l ∈ body, l.shows = true → l.isLabel = false → l.isData = false ∨ b! "-nocompat" ∈ e.args → l ∈ bs) ∧
      r.stdout = unlines ((xs ++ .label a note :: bs ++ ys).map CLine.text) := by
  have hf : CompiledFilter (requestedFilter e.args) :=
    ⟨by simp [requestedFilter, h2], by simp [requestedFilter, h3],
     by simpa [requestedFilter] using h5 b! "-library_functions" (by simp), by simpa [requestedFilter] using h5 b! "-whitespace" (by simp)⟩
  obtain ⟨h0, p, v', hp, k1, -⟩ := C48_run e n hl hi (h5 b! "-binary" (by simp)) r h
  rw [if_pos h1] at k1
  rw [hin] at hp
  obtain ⟨xs, bs, ys, g1, g2, g3, g4, -, g5⟩ := C108_alive e.L _ hf before body after a note hx hd
    (fun hc' => hc (by simpa [requestedFilter] using hc')) ha hb _ ho _ [] v' (by simp) p hp
  refine ⟨h0, xs, bs, ys, g1, g2, g3, fun l hl h1 h2 h3 => ?_, k1.trans g5⟩
  have : l ∈ body.filter (fun l => l.shows && !l.isLabel && !((requestedFilter e.args).compatmode && l.isData)) := by
    refine List.mem_filter.2 ⟨hl, ?_⟩
    rcases h3 with h3 | h3 <;> simp [h1, h2, h3, requestedFilter]
  rw [← g4] at this
  exact (List.mem_filter.1 this).1

/-! ### A sample -/

def firstBody : List CLine := [.label b! ".LFB0" [], .instr b! "jmp" b! "\t" b! ".L2", .label b! ".L2" [], .instr b! "ret" [] []]

/-- An exported function with a label right behind its own and a jump to another label of its own. -/
def firstSample : List CLine := [.directive b! ".globl" b! "\t" b! "f"] ++ .label b! "f" [] :: firstBody ++ []

theorem firstSample_wf : ∀ x ∈ firstSample, x.Wf := by
  have wf : ∀ x : CLine, x.Usual → (x.isBlock = false → ∀ w ∈ [b! ".cfi_endproc", b! ".data", b! ".text", b! ".section"], occurs w x.text = false) →
      (x.isDirective = false → occurs b! ".cfi_startproc" x.text = false) → (x.shows = false → occurs b! ".inst" x.text = false) →
      (∀ c ∈ x.text.getLast?, c ≠ c! '=' ∧ c ≠ c! '(') → x.Wf := fun x a b c d e => ⟨a, b, c, d, e⟩
  unfold firstSample firstBody
  simp only [List.cons_append, List.nil_append, List.append_nil, List.forall_mem_cons]
  refine ⟨?_, ?_, ?_, ?_, ?_, ?_, fun x hx => by cases hx⟩
  all_goals refine wf _ ?_ (by decide +kernel) (by decide +kernel) (by decide +kernel) (by decide +kernel)
  all_goals unfold CLine.Usual
  all_goals try unfold Spaced
  all_goals try unfold SymbolChar
  all_goals try unfold Letter
  all_goals try unfold Digit
  all_goals first
    | exact ⟨by decide, by decide, .inl rfl⟩
    | decide +kernel
    | exact ⟨by decide, ⟨_, rfl, by decide⟩, by decide, by decide, by decide, fun h => absurd h (by decide)⟩
    | exact ⟨by decide, _, _, rfl, by decide, by decide⟩

example : unlines (firstSample.map CLine.render) = b! "\t.globl\tf\nf:\n.LFB0:\n\tjmp\t.L2\n.L2:\n\tret\n" := by decide +kernel

/-- The hypotheses of `C108_alive` hold for the sample, but not those of `C103_alive`. -/
example : (labelNames firstSample).Nodup ∧ Global firstSample b! "f" ∧ NoFunction firstBody ∧
    (∃ o, ComesFirst o (· ∈ labelNames firstSample) (Global firstSample)) ∧ RightBehind firstSample b! ".LFB0" b! "f" := by
  refine ⟨by decide +kernel, ⟨.directive b! ".globl" b! "\t" b! "f", by decide +kernel, rfl, (getGlobal_iff _ _).1 (by decide +kernel), by decide +kernel⟩,
    fun b nt hb => ?_, comesFirst_exists _ _, ⟨[.directive b! ".globl" b! "\t" b! "f"], [], [], [], firstBody.drop 1, rfl, by simp⟩⟩
  have : (b = b! ".LFB0" ∧ nt = []) ∨ b = b! ".L2" ∧ nt = [] := by simpa [firstBody] using hb
  rcases this with ⟨rfl, -⟩ | ⟨rfl, -⟩
  · exact ⟨c! '.', b! "LFB0", rfl, .inl rfl⟩
  · exact ⟨c! '.', b! "L2", rfl, .inl rfl⟩

/-- C108: the order matters: when the labels of the sample are looked at in the order of their definition, the exported function is kept
with its code; in the reverse order, its label and the jump are lost. -/
theorem C108_order : ((TParser.init { unusedLabels := true, directives := true, commentOnly := true }).fromStream Locale.utf8 Order.id 100
      (unlines (firstSample.map CLine.render)) []).map (fun r => r.1.outputText) = some b! "f:\n        jmp     .L2\n        ret\n" ∧
    ((TParser.init { unusedLabels := true, directives := true, commentOnly := true }).fromStream Locale.utf8 Order.rev 100
      (unlines (firstSample.map CLine.render)) []).map (fun r => r.1.outputText) = some b! ".L2:\n        ret\n" := by
  decide +kernel

end AsmParser
