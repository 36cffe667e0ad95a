/-
Properties of text mode: which labels are in use (C39, C40), termination (C41) and determinism (C42).
-/
import Verif.Proofs.UsageOrder
import Verif.Spec.TextSamples

namespace AsmParser

attribute [local irreducible] Re.search Re.fullMatch

/-! ### C39 -/

/-- C39: if the analysis says that a label is used, there is a chain of references from an externally visible label or from
outside any label: for all tables of references, iteration orders, depths and leftovers of earlier questions. -/
theorem C39_query (g : Usage) (o : Order) (n : Nat) (a : Str) (d : Nat) (v v' : List Str)
    (h : isUsed g o n a d v = some (true, v')) : Reachable g a := isUsed_sound h

/-- C39: with the filter for unused labels, every label that is left in the output is reachable, or data below a label at the same
address as a reachable label refers to it. -/
theorem C39_kept (L : Locale) (f : Filter) (s : Str) (p : TParser) (h : TextResult L f s p) (hu : f.unusedLabels = true)
    (l : TLine) (hl : l ∈ p.lines) (hlab : l.isLabel = true) :
    Reachable (references L f s) l.label ∨
      ∃ r a, DataRef (references L f s) l.label r ∧ (r, a) ∈ (references L f s).aliased ∧ Reachable (references L f s) a := by
  obtain ⟨h1, h2⟩ := result_label h hu l hl hlab
  exact h2.imp h1.used h1.data

/-- C39: what the references of an input are.  A reference from code is an instruction below the label, or a directive that
declares the symbol; a reference from data is a data directive that names the symbol; an externally visible symbol is declared
by a directive; and a label is an alias of one that is defined right before it. -/
theorem C39_references (L : Locale) (f : Filter) (s : Str) :
    (∀ a b, CodeRef (references L f s) a b → CodeEvidence f (inputLines s) (heldLines L f s) a b) ∧
    (∀ a b, DataRef (references L f s) a b → DataEvidence (heldLines L f s) a b) ∧
    (∀ a ∈ (references L f s).usercode, DeclaredBy f (inputLines s) globalDirectives a) ∧
    (∀ e ∈ (references L f s).aliased, AliasOf (heldLines L f s) e.1 e.2) :=
  ⟨fun _ _ => references_code, fun _ _ => references_data, (usage_read L f s).tables.user, (usage_read L f s).alias⟩

/-- The labels of the sample that are in use. -/
example : ∃ p, TextResult Locale.utf8 { unusedLabels := true } sampleAsm p ∧ ∃ l ∈ p.lines, l.isLabel = true ∧ l.label = b! "square" :=
  textRun_exists (by decide +kernel)

/-- Data that refers to a label, and labels at the same address. -/
def sampleAlias : Str := b! ".globl f\nf:\ng:\n ret\n.text\nt:\n" ++ b! " .quad h\nh:\n ret\n"

example : (references Locale.utf8 {} sampleAlias).usercode = [b! "f"] ∧ (references Locale.utf8 {} sampleAlias).aliased = [(b! "g", b! "f")] ∧
    Refers (references Locale.utf8 {} sampleAlias).dataUsed (b! "h") (b! "t") := by
  refine ⟨by decide +kernel, by decide +kernel, [b! "t"], by decide +kernel, by decide⟩

/-! ### C40 -/

/-- C40 (partial): asked about one label with no leftovers, the analysis answers correctly for all chains of references from code.
Missing: the answer is wrong when labels are left over from the questions about other labels, see `C40_violation`; chains through
data are not covered. -/
theorem C40_query_partial (L : Locale) (f : Filter) (s : Str) (o : Order) (n : Nat) (a : Str) (v' : List Str) (b : Bool)
    (h : isUsed (references L f s) o n a 1 [] = some (b, v')) (hr : CodeReachable (references L f s) [] a) : b = true := by
  cases b with
  | true => rfl
  | false => exact absurd hr (isUsed_complete (references_keys L f s) h)

/-- C40 (partial): a label that is externally visible or referred to from outside any label is kept, if references from below it
are only to itself, no label is defined at its address right after it, and it is not left over from an earlier parse.
Missing: all other reachable labels. -/
theorem C40_leaf_partial (L : Locale) (f : Filter) (s : Str) (o : Order) (n : Nat) (v v' : List Str) (p : TParser)
    (h : (TParser.init f).fromStream L o n s v = some (p, v')) (hu : f.unusedLabels = true) (a : Str)
    (ha : ∃ l ∈ heldLines L f s, l.isLabel = true ∧ l.label = a)
    (hroot : a ∈ (references L f s).usercode ∨ CodeRef (references L f s) a [])
    (hleaf : ∀ z, CodeRef (references L f s) z a ∨ DataRef (references L f s) z a → z = a)
    (hal : ∀ e ∈ (references L f s).aliased, e.2 ≠ a) (hv : a ∉ v) :
    ∃ l ∈ p.lines, l.isLabel = true ∧ l.label = a := by
  have key : ∀ y x, Leads (references L f s) y x → x = a → y = a := by
    intro y x hl
    induction hl with
    | refl => exact id
    | step _ hr _ ih =>
      intro e
      have := ih e
      subst this
      exact hleaf _ hr
  obtain ⟨l, h1, h2, h3, -⟩ := result_finds h hu (X := fun x => x ≠ a) (a := a) ha (fun x hx e => hv (e ▸ hx))
    (fun l _ _ hne x hx e => hne (key _ _ hx e)) (fun e he x hx hxa => hal e he (key _ _ hx hxa))
    (fun v hv => by
      have hn : a ∉ v := fun h => hv a h rfl
      rcases hroot with h | h
      · exact .visible hn h
      · exact .outside hn h)
  exact ⟨l, h1, h2, h3⟩

/-- A function that calls another one. -/
def sampleCall : Str := b! ".globl main\nmain:\n jmp .L2\n.L2:\n ret\n"

/-- The hypotheses of `C40_leaf_partial` for a function that refers to itself. -/
example : ∃ p, TextResult Locale.utf8 { unusedLabels := true } (b! ".globl f\nf:\n call f\n ret\n") p ∧
    (∃ l ∈ heldLines Locale.utf8 { unusedLabels := true } (b! ".globl f\nf:\n call f\n ret\n"), l.isLabel = true ∧ l.label = b! "f") ∧
    (references Locale.utf8 { unusedLabels := true } (b! ".globl f\nf:\n call f\n ret\n")) = { usercode := [b! "f"], used := [(b! "f", [[]])] } ∧
    ∃ l ∈ p.lines, l.isLabel = true ∧ l.label = b! "f" := by
  obtain ⟨p, h1, h2⟩ := textRun_exists (f := { unusedLabels := true }) (s := b! ".globl f\nf:\n call f\n ret\n")
    (P := fun p => ∃ l ∈ p.lines, l.isLabel = true ∧ l.label = b! "f") (by decide +kernel)
  exact ⟨p, h1, by decide +kernel, by decide +kernel, h2⟩

theorem sampleCall_short : ShortRefs (references Locale.utf8 { unusedLabels := true } sampleCall) := by decide +kernel

theorem sampleCall_labels : ((TParser.init { unusedLabels := true }).readStream Locale.utf8 sampleCall).labelsDefined.map (·.1) =
    [b! "main", b! ".L2"] := by decide +kernel

/-- C40 is violated: whatever the iteration order, one of the two labels of this function is removed although both are reachable. -/
theorem C40_violation (o : Order) (n : Nat) (p : TParser) (v' : List Str)
    (h : (TParser.init { unusedLabels := true }).fromStream Locale.utf8 o n sampleCall [] = some (p, v')) :
    ∃ a, (∃ l ∈ heldLines Locale.utf8 { unusedLabels := true } sampleCall, l.isLabel = true ∧ l.label = a) ∧
      CodeReachable (references Locale.utf8 { unusedLabels := true } sampleCall) [] a ∧
      ¬ ∃ l ∈ p.lines, l.isLabel = true ∧ l.label = a := by
  have h1 : CodeReachable (references Locale.utf8 { unusedLabels := true } sampleCall) [] (b! "main") :=
    .visible (by simp) (by decide +kernel)
  have h2 : CodeReachable (references Locale.utf8 { unusedLabels := true } sampleCall) [] (b! ".L2") :=
    .code (by simp) ⟨[b! "main"], by decide +kernel, by decide⟩ h1
  rcases fromStream_two sampleCall_short sampleCall_labels o n [] with e | e
  · rw [e] at h
    have : ∃ r, (TParser.init { unusedLabels := true }).fromStream Locale.utf8 Order.id 30 sampleCall [] = some r ∧
        ¬ ∃ l ∈ r.1.lines, l.isLabel = true ∧ l.label = b! ".L2" := by
      refine ⟨((TParser.init { unusedLabels := true }).fromStream Locale.utf8 Order.id 30 sampleCall []).get (by decide +kernel), by simp,
        by decide +kernel⟩
    obtain ⟨r, h3, h4⟩ := this
    have := fromStream_fuel h h3
    rw [← this] at h4
    exact ⟨_, by decide +kernel, h2, h4⟩
  · rw [e] at h
    have : ∃ r, (TParser.init { unusedLabels := true }).fromStream Locale.utf8 Order.rev 30 sampleCall [] = some r ∧
        ¬ ∃ l ∈ r.1.lines, l.isLabel = true ∧ l.label = b! "main" := by
      refine ⟨((TParser.init { unusedLabels := true }).fromStream Locale.utf8 Order.rev 30 sampleCall []).get (by decide +kernel), by simp,
        by decide +kernel⟩
    obtain ⟨r, h3, h4⟩ := this
    have := fromStream_fuel h h3
    rw [← this] at h4
    exact ⟨_, by decide +kernel, h1, h4⟩

/-! ### C41 -/

/-- C41 (partial): text mode terminates if no reference from data is part of a cycle of references, for all filters, iteration
orders and leftovers.  Missing: it does not terminate on all other inputs, see `C41_violation`. -/
theorem C41_acyclic_partial (L : Locale) (f : Filter) (s : Str) (o : Order) (v : List Str) (h : NoDataCycle (references L f s)) :
    ∃ n r, (TParser.init f).fromStream L o n s v = some r := by
  obtain ⟨n, hn⟩ := fromStream_total L f s o v h
  exact ⟨n, hn n (Nat.le_refl _)⟩

/-- C41 (partial): text mode terminates on inputs without data directives. -/
theorem C41_no_data_partial (L : Locale) (f : Filter) (s : Str) (o : Order) (v : List Str)
    (h : ∀ line ∈ inputLines s, ∀ kw ∈ dataDirectives, ¬ Contains (ink line) kw) :
    ∃ n r, (TParser.init f).fromStream L o n s v = some r := by
  refine C41_acyclic_partial L f s o v fun a b _ hr => ?_
  obtain ⟨-, l, hl, -, hd, -⟩ := references_data hr
  rcases read_line L f s hl with e | e
  · have : l.isData = false := by have := congrArg TLine.isData e; exact this
    rw [this] at hd; exact absurd hd (by simp)
  · obtain ⟨m, ws, raw, hw, h1, -, h2, -, -⟩ := e.raw
    obtain ⟨bs, kw, r, -, hk, ht⟩ := (isDataDefn_iff _).1 (e.data hd)
    obtain ⟨sp, t', h3, h4, -, h5, -⟩ := lineText_shown f m (ws ++ raw)
    have hi : ink l.text = ink raw := by
      rw [h2, h5, ink_cleaned]
      have := congrArg ink h3
      rw [ink_append, ink_append, ink_blanks hw, ink_spaces h4] at this
      simpa using this.symm
    have hc : Contains (ink l.text) kw :=
      contains_ink ⟨bs, r, ht⟩ (by
        have : ∀ k ∈ dataDirectives, ∀ c ∈ k, ¬ Space c := by unfold Space; decide
        exact this kw hk)
    rw [hi] at hc
    exact absurd hc (h raw h1 kw hk)

/-- An input with a reference from data. -/
example : NoDataCycle (references Locale.utf8 {} sampleAlias) := by
  have e : references Locale.utf8 {} sampleAlias =
      { usercode := [b! "f"], used := [(b! "f", [[]])], dataUsed := [(b! "h", [b! "t"])], aliased := [(b! "g", b! "f")] } := by
    decide +kernel
  rw [e]
  intro a b _ hr hl
  have hab : a = b! "h" ∧ b = b! "t" := by
    rcases hr with ⟨rs, h1, h2⟩ | ⟨rs, h1, h2⟩
    · simp only [List.mem_singleton, Prod.mk.injEq] at h1
      rw [h1.2] at h2
      exact ⟨h1.1, by simpa using h2⟩
    · exact absurd h1 (by simp)
  obtain ⟨rfl, rfl⟩ := hab
  cases hl with
  | step _ hr _ =>
    rcases hr with ⟨rs, h1, -⟩ | ⟨rs, h1, -⟩ | ⟨rs, h1, -⟩
    · simp at h1
    · simp at h1
    · simp at h1

/-- An input without data. -/
example : ∀ line ∈ inputLines sampleCall, ∀ kw ∈ dataDirectives, ¬ Contains (ink line) kw := by
  have : ∀ line ∈ inputLines sampleCall, ∀ kw ∈ dataDirectives, ¬ kw <:+: ink line := by decide +kernel
  rintro line hl kw hk ⟨a, b, e⟩
  exact this line hl kw hk ⟨a, b, e.symm⟩

/-- A function that refers to data that refers to the function. -/
def sampleCycle : Str := b! "A:\n  mov eax, B\nB:\n  .long A\n"

theorem sampleCycle_refs : references Locale.utf8 {} sampleCycle = { used := [(b! "B", [b! "A"])], dataUsed := [(b! "A", [b! "B"])] } := by
  decide +kernel

/-- Asking about `A` never ends. -/
theorem cycle_diverges (o : Order) (n : Nat) (v : List Str) (h : b! "A" ∉ v) :
    isUsed { used := [(b! "B", [b! "A"])], dataUsed := [(b! "A", [b! "B"])] } o n (b! "A") 1 v = none := by
  induction n using Nat.strongRecOn generalizing v with
  | _ n ih =>
    match n with
    | 0 => rfl
    | 1 =>
      rw [isUsed_eq, startVis_pos _ (by omega), if_neg (by simpa using h), if_neg (by simp)]
      rw [run_short o (.used (b! "A")) (l := refsOf [(b! "B", [b! "A"])] (b! "A")) (by decide)]
      rw [run_short o (.weak (b! "A")) (l := refsOf [] (b! "A")) (by decide)]
      rw [run_short o (.data (b! "A")) (l := refsOf [(b! "A", [b! "B"])] (b! "A")) (by decide)]
      rfl
    | n + 2 =>
      have hB : isUsed { used := [(b! "B", [b! "A"])], dataUsed := [(b! "A", [b! "B"])] } o (n + 1) (b! "B") 0 (b! "A" :: v) = none := by
        rw [isUsed_eq]
        have e : startVis 0 (b! "A" :: v) = [] := rfl
        rw [e, if_neg (by simp), if_neg (by simp)]
        rw [run_short o (.used (b! "B")) (l := refsOf [(b! "B", [b! "A"])] (b! "B")) (by decide)]
        have : anyRef (codeCall { used := [(b! "B", [b! "A"])], dataUsed := [(b! "A", [b! "B"])] } o n 0)
            (refsOf [(b! "B", [b! "A"])] (b! "B")) [b! "B"] = none := by
          show anyRef _ [b! "A"] _ = none
          unfold anyRef codeCall
          rw [if_neg (by decide), ih n (by omega) [b! "B"] (by decide)]
        rw [this]
      rw [isUsed_eq, startVis_pos _ (by omega), if_neg (by simpa using h), if_neg (by simp)]
      rw [run_short o (.used (b! "A")) (l := refsOf [(b! "B", [b! "A"])] (b! "A")) (by decide)]
      rw [run_short o (.weak (b! "A")) (l := refsOf [] (b! "A")) (by decide)]
      rw [run_short o (.data (b! "A")) (l := refsOf [(b! "A", [b! "B"])] (b! "A")) (by decide)]
      have : anyRef (fun r v => isUsed { used := [(b! "B", [b! "A"])], dataUsed := [(b! "A", [b! "B"])] } o (n + 1) r (1 - 1) v)
          (refsOf [(b! "A", [b! "B"])] (b! "A")) (b! "A" :: v) = none := by
        show anyRef _ [b! "B"] _ = none
        unfold anyRef
        rw [hB]
      have eA : anyRef (codeCall { used := [(b! "B", [b! "A"])], dataUsed := [(b! "A", [b! "B"])] } o (n + 1) 1)
          (refsOf [(b! "B", [b! "A"])] (b! "A")) (b! "A" :: v) = some (false, b! "A" :: v) := rfl
      have eW : anyRef (fun r v => isUsed { used := [(b! "B", [b! "A"])], dataUsed := [(b! "A", [b! "B"])] } o (n + 1) r (1 - 1) v)
          (refsOf [] (b! "A")) (b! "A" :: v) = some (false, b! "A" :: v) := rfl
      rw [eA]
      dsimp only
      rw [if_pos (by omega), eW]
      dsimp only
      rw [this]

/-- C41 is violated: text mode does not terminate on this input, whatever the iteration order. -/
theorem C41_violation (o : Order) (n : Nat) : (TParser.init {}).fromStream Locale.utf8 o n sampleCycle [] = none := by
  have hs : ShortRefs (references Locale.utf8 {} sampleCycle) := by rw [sampleCycle_refs]; decide
  have hl : ((TParser.init {}).readStream Locale.utf8 sampleCycle).labelsDefined = [(b! "A", 1), (b! "B", 3)] := by decide +kernel
  have hline : ((TParser.init {}).readStream Locale.utf8 sampleCycle).filterNonLabels.lines[0]?.map TLine.label = some (b! "A") := by
    decide +kernel
  obtain ⟨lineA, hA, hA'⟩ := Option.map_eq_some_iff.1 hline
  have hu : ((TParser.init {}).readStream Locale.utf8 sampleCycle).filterNonLabels.usage =
    { used := [(b! "B", [b! "A"])], dataUsed := [(b! "A", [b! "B"])] } := sampleCycle_refs
  have hld : ((TParser.init {}).readStream Locale.utf8 sampleCycle).filterNonLabels.labelsDefined = [(b! "A", 1), (b! "B", 3)] := hl
  rcases fromStream_two hs (x := b! "A") (y := b! "B") (by rw [hl]; rfl) o n [] with e | e
  · rw [e]
    unfold TParser.fromStream TParser.markLabelUsage
    generalize ((TParser.init {}).readStream Locale.utf8 sampleCycle).filterNonLabels = q at *
    have : q.markLoop Order.id n (Order.id.run .labels (q.labelsDefined.map (·.1))) [] = none := by
      rw [hld]
      show q.markLoop Order.id n [b! "A", b! "B"] [] = none
      unfold TParser.markLoop
      simp only
      rw [hld]
      have e : ((([(b! "A", 1), (b! "B", 3)] : List (Str × Nat)).lookup (b! "A")).getD 0 - 1) = 0 := by decide
      rw [e, hA]
      have : markLine q.usage Order.id n lineA [] = none := by
        unfold markLine
        rw [hu, hA', cycle_diverges _ _ _ (by simp)]
      simp only [this]
    rw [this]
  · rw [e]
    have hlineB : ((TParser.init {}).readStream Locale.utf8 sampleCycle).filterNonLabels.lines[2]?.map TLine.label = some (b! "B") := by
      decide +kernel
    obtain ⟨lineB, hB, hB'⟩ := Option.map_eq_some_iff.1 hlineB
    have hend : ∀ w x, isUsed { used := [(b! "B", [b! "A"])], dataUsed := [(b! "A", [b! "B"])] } Order.rev n (b! "B") 1 [] = some (x, w) →
        x = false ∧ w = [] := by
      intro w x hw
      have h1 : isUsed { used := [(b! "B", [b! "A"])], dataUsed := [(b! "A", [b! "B"])] } Order.rev 10 (b! "B") 1 [] = some (false, []) := by
        decide +kernel
      have h1 := isUsed_mono h1 (n + 10) (by omega)
      have h2 := isUsed_mono hw (n + 10) (by omega)
      rw [h1] at h2
      simp only [Option.some.injEq, Prod.mk.injEq] at h2
      exact ⟨h2.1.symm, h2.2.symm⟩
    unfold TParser.fromStream TParser.markLabelUsage
    generalize ((TParser.init {}).readStream Locale.utf8 sampleCycle).filterNonLabels = q at *
    have : q.markLoop Order.rev n (Order.rev.run .labels (q.labelsDefined.map (·.1))) [] = none := by
      rw [hld]
      show q.markLoop Order.rev n [b! "B", b! "A"] [] = none
      unfold TParser.markLoop
      simp only
      have e : (q.labelsDefined.lookup (b! "B")).getD 0 - 1 = 2 := by rw [hld]; decide
      rw [e, hB]
      simp only
      cases hm : markLine q.usage Order.rev n lineB [] with
      | none => rfl
      | some r =>
        obtain ⟨l', w⟩ := r
        have hw : w = [] := by
          unfold markLine at hm
          rw [hu, hB'] at hm
          cases hx : isUsed { used := [(b! "B", [b! "A"])], dataUsed := [(b! "A", [b! "B"])] } Order.rev n (b! "B") 1 [] with
          | none => rw [hx] at hm; exact absurd hm (by simp)
          | some y =>
            obtain ⟨x, w'⟩ := y
            obtain ⟨rfl, rfl⟩ := hend w' x hx
            rw [hx] at hm
            have hd : isDataUsedThroughAlias { used := [(b! "B", [b! "A"])], dataUsed := [(b! "A", [b! "B"])] } Order.rev n (b! "B") [] =
              some (false, []) := rfl
            have ha : isUsedThroughAlias { used := [(b! "B", [b! "A"])], dataUsed := [(b! "A", [b! "B"])] } Order.rev n (b! "B") [] =
              some (false, []) := rfl
            simp only [hd, ha] at hm
            simp only [Option.some.injEq, Prod.mk.injEq] at hm
            exact hm.2.symm
        subst hw
        simp only
        unfold TParser.markLoop
        simp only
        have e : (q.labelsDefined.lookup (b! "A")).getD 0 - 1 = 0 := by rw [hld]; decide
        rw [e, List.getElem?_set_ne (by omega), hA]
        have : markLine q.usage Order.rev n lineA [] = none := by
          unfold markLine
          rw [hu, hA', cycle_diverges _ _ _ (by simp)]
        simp only [this]
    rw [this]

/-! ### C42 -/

/-- C42 (partial): without the filter for unused labels the output does not depend on the iteration order of hash containers, on
what was parsed before on the same thread or on the number of steps, unless both `compatmode` and `directives` are set and data
is placed outside procedures.  Missing: with the filter, see `C42_violation_order` and `C42_violation_history`. -/
theorem C42_partial (L : Locale) (f : Filter) (s : Str) (p p' : TParser) (h : TextResult L f s p) (h' : TextResult L f s p')
    (hu : f.unusedLabels = false)
    (hd : (f.compatmode && f.directives) = false ∨ ∀ l ∈ heldLines L f s, l.isData = true → l.source.insideProc = true) :
    p.outputText = p'.outputText ∧ ∀ time, p.outputJson time = p'.outputJson time := by
  have e : p.lines.map TLine.noUse = p'.lines.map TLine.noUse := (result_lines h hu hd).trans (result_lines h' hu hd).symm
  obtain ⟨_, _, _, _, _, e1, -⟩ := h.outcome.frame
  obtain ⟨_, _, _, _, _, e2, -⟩ := h'.outcome.frame
  have hf : p.filter = p'.filter := by rw [e1, e2]
  have ht : p.totalLines = p'.totalLines := by rw [e1, e2]
  clear e1 e2
  have len : p.lines.length = p'.lines.length := by simpa using congrArg List.length e
  have texts : ∀ ls : List TLine, (ls.flatMap fun l => l.text ++ [10]) = (ls.map TLine.noUse).flatMap fun l => l.text ++ [10] := by
    intro ls; rw [List.flatMap_map]; rfl
  refine ⟨?_, fun time => ?_⟩
  · unfold TParser.outputText
    rw [texts, e, ← texts]
  · have lines : ∀ ls : List TLine, (ls.map TLine.toAsm).map (writeLine p.filter) =
        ((ls.map TLine.noUse).map TLine.toAsm).map (writeLine p.filter) := by
      intro ls
      rw [List.map_map, List.map_map, List.map_map]
      rfl
    unfold TParser.outputJson TParser.jsonDoc JsonDoc.write JsonDoc.filteredCount
    simp only
    rw [lines, e, ← lines, redetermine_noUse, e, ← redetermine_noUse, hf, ht]
    simp only [List.length_map, len]

/-- Both runs of the sample. -/
example : ∃ p p', TextResult Locale.utf8 {} sampleAsm p ∧ TextResult Locale.utf8 {} sampleAsm p' ∧ p.outputText = p'.outputText := by
  obtain ⟨p, h, -⟩ := textRun_exists (f := {}) (s := sampleAsm) (P := fun _ => True) (by decide +kernel)
  exact ⟨p, p, h, h, rfl⟩

/-- C42: for one iteration order and the same leftovers there is only one result. -/
theorem C42_steps (L : Locale) (f : Filter) (s : Str) (o : Order) (n m : Nat) (v : List Str) (r r' : TParser × List Str)
    (h : (TParser.init f).fromStream L o n s v = some r) (h' : (TParser.init f).fromStream L o m s v = some r') : r = r' :=
  fromStream_fuel h h'

/-- C42 is violated: the output depends on the iteration order. -/
theorem C42_violation_order : ∃ p p', TextResult Locale.utf8 { unusedLabels := true } sampleCall p ∧
    TextResult Locale.utf8 { unusedLabels := true } sampleCall p' ∧
    p.outputText = b! ".globl main\nmain:\n jmp .L2\n ret\n" ∧ p'.outputText = b! ".globl main\n.L2:\n ret\n" := by
  let r := (TParser.init { unusedLabels := true }).fromStream Locale.utf8 Order.id 30 sampleCall []
  let r' := (TParser.init { unusedLabels := true }).fromStream Locale.utf8 Order.rev 30 sampleCall []
  refine ⟨(r.get (by decide +kernel)).1, (r'.get (by decide +kernel)).1, ⟨Order.id, 30, [], (r.get (by decide +kernel)).2, (Option.some_get _).symm⟩,
    ⟨Order.rev, 30, [], (r'.get (by decide +kernel)).2, (Option.some_get _).symm⟩, by decide +kernel, by decide +kernel⟩

/-- C42 is violated: parsing the same text a second time on the same thread gives a different result. -/
theorem C42_violation_history : ∃ p v p' v',
    (TParser.init { unusedLabels := true }).fromStream Locale.utf8 Order.id 30 sampleCall [] = some (p, v) ∧
    (TParser.init { unusedLabels := true }).fromStream Locale.utf8 Order.id 30 sampleCall v = some (p', v') ∧
    p.outputText = b! ".globl main\nmain:\n jmp .L2\n ret\n" ∧ p'.outputText = b! ".globl main\n" := by
  let r := (TParser.init { unusedLabels := true }).fromStream Locale.utf8 Order.id 30 sampleCall []
  let r' := (TParser.init { unusedLabels := true }).fromStream Locale.utf8 Order.id 30 sampleCall (r.get (by decide +kernel)).2
  refine ⟨(r.get (by decide +kernel)).1, (r.get (by decide +kernel)).2, (r'.get (by decide +kernel)).1, (r'.get (by decide +kernel)).2,
    (Option.some_get _).symm, (Option.some_get _).symm, by decide +kernel, by decide +kernel⟩

end AsmParser
