/-
Property C65: the labels of an input and the references between them.
-/
import Verif.Proofs.GraphRead
import Verif.Proofs.UsageBound
import Verif.Props.Usage

namespace AsmParser

attribute [local irreducible] Re.search Re.fullMatch

/-! ### The specification determines its results -/

/-- A line defines at most one label, … -/
theorem C65_defines_unique (t : Seen) (l l' : Str) (h : t.Defines l) (h' : t.Defines l') : l = l' := h.unique h'

/-- … and after given lines there is at most one label, … -/
theorem C65_label_unique (ts : List Seen) (l l' : Str) (h : LabelAt ts l) (h' : LabelAt ts l') : l = l' := h.unique h'

/-- … one function … -/
theorem C65_function_unique (ts : List Seen) (l l' : Str) (h : FunctionAt ts l) (h' : FunctionAt ts l') : l = l' := h.unique h'

/-- … and one label at the address. -/
theorem C65_address_unique (ts : List Seen) (l l' : Str) (h : AddressAt ts l) (h' : AddressAt ts l') : l = l' := h.unique h'

section

variable [Recognizers]

/-! ### The references -/

/-- C65: the labels that are defined. -/
theorem C65_defined (L : Locale) (f : Filter) (s : Str) (a : Str) :
    (∃ n, (a, n) ∈ ((TParser.init f).readStream L s).labelsDefined) ↔ ∃ t ∈ seen f s, t.Defines a := by
  rw [← (readGraph L f s).defs]
  show _ ↔ a ∈ ((TParser.init f).readStream L s).labelsDefined.map (·.1)
  rw [List.mem_map]
  exact ⟨fun ⟨n, h⟩ => ⟨_, h, rfl⟩, fun ⟨⟨x, n⟩, h, e⟩ => ⟨n, e ▸ h⟩⟩

/-- C65: code below `b` refers to `a` exactly if `a` is a label and an instruction in the function `b` mentions it, or a directive
below the label `b` declares it. -/
theorem C65_code (L : Locale) (f : Filter) (s : Str) (a b : Str) :
    CodeRef (references L f s) a b ↔ (∃ t ∈ seen f s, t.Defines a) ∧ CodeUse (seen f s) a b := by
  rw [← C65_defined L, ← (readGraph L f s).code]
  unfold CodeRef references TParser.filterNonLabels Refers
  simp only [List.mem_filter]
  constructor
  · rintro ⟨rs, ⟨h1, h2⟩, h3⟩
    refine ⟨?_, rs, h1, h3⟩
    obtain ⟨n, hn⟩ := Option.isSome_iff_exists.1 h2
    exact ⟨n, mem_of_lookup hn⟩
  · rintro ⟨⟨n, hn⟩, rs, h1, h3⟩
    exact ⟨rs, ⟨h1, lookup_isSome hn⟩, h3⟩

/-- C65: data below `b` refers to `a` exactly if data below the label `b` mentions it, or data in the function `b` at a position. -/
theorem C65_data (L : Locale) (f : Filter) (s : Str) (a b : Str) : DataRef (references L f s) a b ↔ DataUse (seen f s) a b := by
  rw [← (readGraph L f s).data]
  refine ⟨fun h => h.elim id fun ⟨rs, h, _⟩ => ?_, .inl⟩
  have : (references L f s).weaklyUsed = [] := by
    show List.filter _ ((TParser.init f).readStream L s).usage.weaklyUsed = []
    rw [show ((TParser.init f).readStream L s).usage.weaklyUsed = [] from (readGraph L f s).weak]
    rfl
  rw [this] at h
  cases h

/-- C65: the labels that are exported. -/
theorem C65_exported (L : Locale) (f : Filter) (s : Str) (a : Str) :
    a ∈ (references L f s).usercode ↔ ∃ t ∈ seen f s, t.Exports a := (readGraph L f s).user a

/-- C65: the labels at the same address. -/
theorem C65_same_address (L : Locale) (f : Filter) (s : Str) (b a : Str) :
    (b, a) ∈ (references L f s).aliased ↔ SameAddress (seen f s) b a := (readGraph L f s).alias b a

/-- C65: the labels in use are those that the references lead to. -/
theorem C65_reachable (L : Locale) (f : Filter) (s : Str) (a : Str) : Reachable (references L f s) a ↔ InUse (seen f s) a := by
  constructor
  · intro h
    induction h with
    | visible h => obtain ⟨t, ht, h⟩ := (C65_exported L f s _).1 h; exact .exported ht h
    | outside h => obtain ⟨⟨t, ht, h1⟩, h2⟩ := (C65_code L f s _ _).1 h; exact .outside ht h1 h2
    | code h _ ih => obtain ⟨⟨t, ht, h1⟩, h2⟩ := (C65_code L f s _ _).1 h; exact .code ht h1 h2 ih
    | data h _ ih => exact .data ((C65_data L f s _ _).1 h) ih
  · intro h
    induction h with
    | exported ht h => exact .visible ((C65_exported L f s _).2 ⟨_, ht, h⟩)
    | outside ht h1 h2 => exact .outside ((C65_code L f s _ _).2 ⟨⟨_, ht, h1⟩, h2⟩)
    | code ht h1 h2 _ ih => exact .code ((C65_code L f s _ _).2 ⟨⟨_, ht, h1⟩, h2⟩) ih
    | data h _ ih => exact .data ((C65_data L f s _ _).2 h) ih

/-! ### Consequences for the output -/

/-- C65: with the filter for unused labels, every label that is left in the output is in use, or data below a label at the same
address as a label in use mentions it. -/
theorem C65_kept (L : Locale) (f : Filter) (s : Str) (p : TParser) (h : TextResult L f s p) (hu : f.unusedLabels = true)
    (l : TLine) (hl : l ∈ p.lines) (hlab : l.isLabel = true) :
    InUse (seen f s) l.label ∨ ∃ r a, DataUse (seen f s) l.label r ∧ SameAddress (seen f s) r a ∧ InUse (seen f s) a := by
  rcases C39_kept L f s p h hu l hl hlab with h | ⟨r, a, h1, h2, h3⟩
  · exact .inl ((C65_reachable L f s _).1 h)
  · exact .inr ⟨r, a, (C65_data L f s _ _).1 h1, (C65_same_address L f s _ _).1 h2, (C65_reachable L f s _).1 h3⟩

/-- C65: a program without circular references from data is read to its end. -/
theorem C65_terminates (L : Locale) (f : Filter) (s : Str) (o : Order) (v : List Str)
    (h : ∀ a b, (∀ t ∈ seen f s, ¬ t.Exports a) → DataUse (seen f s) a b → ¬ UseChain (seen f s) b a) :
    ∃ n r, (TParser.init f).fromStream L o n s v = some r := by
  refine C41_acyclic_partial L f s o v fun a b ha hr hl => ?_
  have hx : ∀ a, a ∉ (references L f s).usercode → ∀ t ∈ seen f s, ¬ t.Exports a := fun a ha t ht he => ha ((C65_exported L f s a).2 ⟨t, ht, he⟩)
  refine h a b (hx a ha) ((C65_data L f s a b).1 hr) ?_
  clear h hr ha
  induction hl with
  | refl => exact .refl
  | step h1 h2 _ ih => exact .step (hx _ h1) (h2.imp (C65_code L f s _ _).1 (C65_data L f s _ _).1) ih

/-- In the sample for labels at the same address, the exported `f` is in use; `g` has its address; data below `t` mentions `h`. -/
example : InUse (seen {} sampleAlias) b! "f" ∧ SameAddress (seen {} sampleAlias) b! "g" b! "f" ∧ DataUse (seen {} sampleAlias) b! "h" b! "t" :=
  ⟨(C65_reachable Locale.utf8 {} _ _).1 (.visible (by decide +kernel)), (C65_same_address Locale.utf8 {} _ _ _).1 (by decide +kernel),
    (C65_data Locale.utf8 {} _ _ _).1 (.inl ⟨[b! "t"], by decide +kernel, by decide⟩)⟩

/-- In `sampleCall` the exported `main` refers to `.L2`; so that is in use. -/
example : CodeUse (seen {} sampleCall) b! ".L2" b! "main" ∧ InUse (seen {} sampleCall) b! ".L2" :=
  have h : CodeRef (references Locale.utf8 {} sampleCall) b! ".L2" b! "main" := ⟨[b! "main"], by decide +kernel, by decide⟩
  ⟨((C65_code Locale.utf8 {} _ _ _).1 h).2, (C65_reachable Locale.utf8 {} _ _).1 (.code h (.visible (by decide +kernel)))⟩

/-- The circular references of `sampleCycle`, on which reading does not end. -/
example : DataUse (seen {} sampleCycle) b! "A" b! "B" ∧ CodeUse (seen {} sampleCycle) b! "B" b! "A" :=
  ⟨(C65_data Locale.utf8 {} _ _ _).1 (.inl ⟨[b! "B"], by decide +kernel, by decide⟩),
    ((C65_code Locale.utf8 {} _ _ _).1 ⟨[b! "A"], by decide +kernel, by decide⟩).2⟩

/-! ### C40 -/

/-- C40 is violated in general: if no data mentions a name, at most as many label lines are left as there are labels that are exported
or that code outside functions refers to.  All other labels are lost, whatever refers to them. -/
theorem C40_violation_count (L : Locale) (f : Filter) (s : Str) (p : TParser) (h : TextResult L f s p) (hu : f.unusedLabels = true)
    (hd : ∀ a b, ¬ DataUse (seen f s) a b) (roots : List Str)
    (hr : ∀ a, (∃ t ∈ seen f s, t.Exports a) ∨ (∃ t ∈ seen f s, t.Defines a) ∧ CodeUse (seen f s) a [] → a ∈ roots) :
    (p.lines.filter (·.isLabel)).length ≤ roots.length := by
  obtain ⟨rs, h1, h2, h3⟩ := result_spends h hu fun a b hab => hd a b ((C65_data L f s a b).1 hab)
  rw [← List.countP_eq_length_filter]
  exact Nat.le_trans h3 (nodup_length_le h1 fun r hr' => hr r ((h2 r hr').imp (C65_exported L f s r).1 (C65_code L f s r []).1))

/-- In `sampleCall` only `main` is exported, so that at most one of its two labels is left, although both are in use. -/
example (p : TParser) (h : TextResult Locale.utf8 { unusedLabels := true } sampleCall p) : (p.lines.filter (·.isLabel)).length ≤ 1 := by
  have e : references Locale.utf8 { unusedLabels := true } sampleCall =
      { usercode := [b! "main"], used := [(b! "main", [[]]), (b! ".L2", [b! "main"])] } := by decide +kernel
  refine C40_violation_count _ _ _ p h rfl (fun a b hab => ?_) [b! "main"] fun a ha => ?_
  · rcases (C65_data Locale.utf8 _ _ _ _).2 hab with ⟨rs, h1, -⟩ | ⟨rs, h1, -⟩ <;> rw [e] at h1 <;> cases h1
  · rw [← C65_exported Locale.utf8, ← C65_code Locale.utf8, e] at ha
    rcases ha with ha | ⟨rs, h1, h2⟩
    · exact ha
    · rcases List.mem_cons.1 h1 with h1 | h1
      · injection h1 with h1 _; rw [h1]; simp
      · rw [List.mem_singleton] at h1
        injection h1 with _ h1
        rw [h1] at h2
        exact absurd h2 (by decide)

/-! ### C66 -/

/-- C66 (partial): an instruction in a function refers to every label that it mentions, except the function itself.
Missing: CUDA code, see `C66_violation`, and instructions with `=`. -/
theorem C66_mentions_partial (L : Locale) (f : Filter) (s : Str) (before after : List Seen) (t : Seen) (a b : Str)
    (hs : seen f s = before ++ t :: after) (ht : t.Plain) (hc : t.code = false) (hl : BeginsWithLetter t.text) (he : c! '=' ∉ t.text)
    (hf : FunctionAt before b) (ha : a ∈ mentioned t.text) (hab : a ≠ b) (hd : ∃ u ∈ seen f s, u.Defines a) :
    CodeRef (references L f s) a b :=
  (C65_code L f s a b).2 ⟨hd, before, t, after, hs, .inl ⟨⟨ht, by rw [hc]; exact letter_instruction hl he⟩, ha, hf, hab⟩⟩

end

/-- C66 is violated by all CUDA code: a line whose first word has at least two letters is never taken for an instruction (unless it
contains `.inst`), so that it refers to nothing. -/
theorem C66_violation (t : Seen) (hc : t.code = true) (bs r : Str) (c d : Byte) (e : t.text = bs ++ c :: d :: r) (hb : Blanks bs)
    (h1 : Letter c) (h2 : Letter d) (hi : ¬ Contains t.text b! ".inst") : ¬ t.Instr := by
  rintro ⟨-, h⟩
  rw [hc] at h
  exact cuda_no_instruction e hb h1 h2 hi h

/-- A jump that meets the assumptions of `C66_mentions_partial`. -/
example : CodeRef (references Locale.utf8 {} b! "f:\n jmp .L\n.L:\n ret\n") b! ".L" b! "f" := by
  have h1 : Seen.Defines { text := b! "f:" } b! "f" :=
    ⟨rfl, fun h => absurd h.2 (by decide +kernel), .inl ((getLabelFromLine_places _ _).1 ⟨false, by decide +kernel⟩)⟩
  have h2 : Seen.Defines { text := b! ".L:" } b! ".L" :=
    ⟨rfl, fun h => absurd h.2 (by decide +kernel), .inl ((getLabelFromLine_places _ _).1 ⟨false, by decide +kernel⟩)⟩
  refine C66_mentions_partial _ _ _ [{ text := b! "f:" }] [{ text := b! ".L:" }, { text := b! " ret" }] { text := b! " jmp .L" } _ _
    (by decide +kernel) ⟨rfl, fun l h => ?_⟩ rfl ⟨b! " ", c! 'j', b! "mp .L", by decide, by unfold Letter; decide, rfl⟩ (by decide)
    (.label (ts := []) h1 ?_) (by decide +kernel) (by decide) ⟨_, ?_, h2⟩
  · obtain ⟨a, c, e⟩ := (label_of_line _ _).2 h.2.2
    rw [show getLabelFromLine b! " jmp .L" = none by decide +kernel] at e
    cases e
  · rw [← internal_iff]; decide
  · rw [show seen {} b! "f:\n jmp .L\n.L:\n ret\n" = [{ text := b! "f:" }, { text := b! " jmp .L" }, { text := b! ".L:" }, { text := b! " ret" }] by
      decide +kernel]
    simp

/-- A branch in CUDA code: nothing refers to its target, which is also said to be at the address of the function. -/
example : CodeRef (references Locale.utf8 {} b! "f:\n bra $L1;\n$L1:\n ret;\n") b! "$L1" b! "f" ∧
    (references Locale.utf8 {} b! ".visible .entry f(\n)\n{\n bra $L1;\n$L1:\n ret;\n}\n").used = [] ∧
    (references Locale.utf8 {} b! ".visible .entry f(\n)\n{\n bra $L1;\n$L1:\n ret;\n}\n").aliased = [(b! "$L1", b! "entry")] := by
  refine ⟨⟨[b! "f"], by decide +kernel, by decide⟩, by decide +kernel, by decide +kernel⟩

/-- With the filter for unused labels, a visible CUDA function is removed altogether. -/
theorem C66_violation_output : ∃ p, TextResult Locale.utf8 { unusedLabels := true } b! ".visible .entry f(\n)\n{\n bra $L1;\n$L1:\n ret;\n}\n" p ∧
    p.outputText = [] :=
  textRun_exists (by decide +kernel)

end AsmParser
