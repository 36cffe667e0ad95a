/-
Properties C63 and C64: what the filter `unused_labels` removes.
-/
import Verif.Proofs.Removal
import Verif.Proofs.SourceRead
import Verif.Spec.TextSamples

namespace AsmParser

attribute [local irreducible] Re.search Re.fullMatch

/-! ### C63 -/

/-- C63: the lines of the output are exactly those that remain (`Spec/Removal.lean`) of the lines read, with some usage flags `ms`.
A flag is only set for a reason.  Text and all other fields that are known before the usage analysis stay the same (`TLine.core`). -/
theorem C63_removed (L : Locale) (f : Filter) (s : Str) (p : TParser) (h : TextResult L f s p) :
    ∃ ms : List TLine, ms.map TLine.noUse = (heldLines L f s).map TLine.noUse ∧
      (∀ l ∈ ms, (l.isUsed = true → Reachable (references L f s) l.label) ∧
        (l.isUsedThroughAlias = true → ∃ a, (l.label, a) ∈ (references L f s).aliased ∧ Reachable (references L f s) a) ∧
        (l.isUsedDataThroughAlias = true → ∃ r a, DataRef (references L f s) l.label r ∧ (r, a) ∈ (references L f s).aliased ∧
          Reachable (references L f s) a)) ∧
      ∀ drop : List TLine → TLine → Bool, (∀ b l, drop b l = true ↔ Removed f b l) →
        p.lines.map TLine.core = (remaining drop [] ms).map TLine.core := by
  obtain ⟨ms, h1, h2, h3⟩ := result_remaining h
  refine ⟨ms, h1, fun l hl => ⟨(h2 l hl).used, (h2 l hl).alias, (h2 l hl).data⟩, fun drop hd => ?_⟩
  rw [h3 drop hd, List.map_map]
  exact List.map_congr_left fun l _ => finishKept_core _ l

/-- C57 and C63 together: the output text for every input and every filter.  The lines `ms` are the lines shown by the scan, with
flags, and the output are those that remain. -/
theorem C63_output [Recognizers] (L : Locale) (f : Filter) (s : Str) (p : TParser) (h : TextResult L f s p) :
    ∃ ms : List TLine, ms.map TLine.text = collapse (scan f s).shown ∧
      (∀ l ∈ ms, l.isUsed = true → Reachable (references L f s) l.label) ∧
      ∀ drop : List TLine → TLine → Bool, (∀ b l, drop b l = true ↔ Removed f b l) →
        p.outputText = unlines ((remaining drop [] ms).map TLine.text) := by
  obtain ⟨ms, h1, h2, h3⟩ := C63_removed L f s p h
  refine ⟨ms, ?_, fun l hl => (h2 l hl).1, fun drop hd => ?_⟩
  · rw [← (readTags L f s).2.1]
    have := congrArg (List.map TLine.text) h1
    rw [List.map_map, List.map_map] at this
    exact this
  · rw [outputText_unlines, map_core (h3 drop hd) TLine.text fun _ => rfl]

/-- There is such a program. -/
example (f : Filter) : ∃ drop : List TLine → TLine → Bool, ∀ b l, drop b l = true ↔ Removed f b l := by
  classical
  exact ⟨fun b l => decide (Removed f b l), fun b l => by simp⟩

/-- An unused function is removed with its internal labels, the unused label `.L1` of the other function alone. -/
example : (textRun { unusedLabels := true } b! ".globl f\nf:\n nop\n.L1:\n ret\ng:\n ret\n.L2:\n.globl h\nh:\n ret\n").map (·.outputText) =
    some b! ".globl f\nf:\n nop\n ret\nh:\n ret\n" := by decide +kernel

/-! ### C64 -/

/-- The lines below a label in use stay, up to the next label that is neither compiler-generated nor in inline assembly. -/
theorem body_kept {f : Filter} {p : TParser} {x body rest : List TLine} {l : TLine}
    (h : ∀ drop : List TLine → TLine → Bool, (∀ b l, drop b l = true ↔ Removed f b l) →
      p.lines.map TLine.core = (remaining drop [] (x ++ l :: body ++ rest)).map TLine.core)
    (hl : l.isLabel = true) (hused : l.isUsed = true)
    (hbody : ∀ y ∈ body, y.isLabel = true → y.isInternalLabel = true ∨ y.isInlineAsm = true) :
    ∀ y ∈ body, y.isLabel = false → y.isData = false → y.core ∈ p.lines.map TLine.core := by
  classical
  intro y hy hy1 hy2
  rw [h (fun b l => decide (Removed f b l)) fun b l => by simp]
  refine List.mem_map.2 ⟨y, ?_, rfl⟩
  obtain ⟨b1, b2, rfl⟩ := List.append_of_mem hy
  have kept : ∀ (ls before rest : List TLine) (z : TLine), ¬ Removed f (before ++ ls) z →
      z ∈ remaining (fun b l => decide (Removed f b l)) before (ls ++ z :: rest) := by
    intro ls
    induction ls with
    | nil =>
      intro before rest z hz
      rw [List.append_nil] at hz
      rw [List.nil_append]
      unfold remaining
      rw [if_neg (by simpa using hz)]
      exact List.mem_cons_self
    | cons w ls ih =>
      intro before rest z hz
      have := ih (before ++ [w]) rest z (by simpa using hz)
      rw [List.cons_append]
      unfold remaining
      split
      · exact this
      · exact List.mem_cons_of_mem _ this
  rw [show x ++ l :: (b1 ++ y :: b2) ++ rest = (x ++ l :: b1) ++ y :: (b2 ++ rest) by simp]
  refine kept _ [] _ _ ?_
  rw [List.nil_append]
  rintro (⟨-, h | h⟩ | ⟨-, -, ⟨a', w, e, h, -⟩, -⟩)
  · rw [inUnused_snoc] at h
    rcases h with h | ⟨⟨a', m, b', e, g1, g2⟩, -⟩
    · have := h.1.1
      rw [hy1] at this; exact absurd this (by simp)
    · have hb1 : ∀ w ∈ b1, w.StartsRemoval → False := by
        intro w hw hr
        rcases hbody w (List.mem_append_left _ hw) hr.1.1 with h | h
        · rw [hr.2.1] at h; exact absurd h (by simp)
        · rw [hr.2.2] at h; exact absurd h (by simp)
      rcases List.append_eq_append_iff.1 e with ⟨c, q1, q2⟩ | ⟨c, q1, q2⟩
      · cases c with
        | nil =>
          have := (List.cons.inj q2).1
          subst this
          have := g1.1.2.1
          rw [hused] at this; exact absurd this (by simp)
        | cons w c => exact hb1 m (by rw [(List.cons.inj q2).2]; simp) g1
      · cases c with
        | nil =>
          have := (List.cons.inj q2).1
          subst this
          have := g1.1.2.1
          rw [hused] at this; exact absurd this (by simp)
        | cons w c =>
          have := g2 l (by rw [(List.cons.inj q2).2]; simp) hl
          rw [hused] at this; exact absurd this (by simp)
  · have : y.isLabel = true := by
      rcases h with h | h
      · exact h.1.1
      · exact h.1
    rw [hy1] at this; exact absurd this (by simp)
  · have := (List.append_inj' e rfl).2
    obtain rfl : y = w := by simpa using this
    rw [hy2] at h; exact absurd h (by simp)

/-- C64 (partial): the code of an exported function stays: if the label `a` is defined once, is externally visible (or referred to
from outside any label), and the conditions of `C40_leaf_partial` hold, then every line below it that is neither a label nor data is in
the output, up to the next label that is neither compiler-generated nor in inline assembly.
Missing: functions that refer to other labels (see C75), and the code after other labels (see `C64_violation`). -/
theorem C64_body_partial (L : Locale) (f : Filter) (s : Str) (o : Order) (n : Nat) (v v' : List Str) (p : TParser)
    (h : (TParser.init f).fromStream L o n s v = some (p, v')) (hu : f.unusedLabels = true) (a : Str)
    (hroot : a ∈ (references L f s).usercode ∨ CodeRef (references L f s) a [])
    (hleaf : ∀ z, CodeRef (references L f s) z a ∨ DataRef (references L f s) z a → z = a)
    (hal : ∀ e ∈ (references L f s).aliased, e.2 ≠ a) (hv : a ∉ v)
    (x body rest : List TLine) (l : TLine) (hs : heldLines L f s = x ++ l :: body ++ rest) (hl : l.isLabel = true ∧ l.label = a)
    (honce : ∀ y ∈ x ++ body ++ rest, y.isLabel = true → y.label ≠ a)
    (hbody : ∀ y ∈ body, y.isLabel = true → y.isInternalLabel = true ∨ y.isInlineAsm = true) :
    ∀ y ∈ body, y.isLabel = false → y.isData = false → y.core ∈ p.lines.map TLine.core := by
  have key : ∀ y x, Leads (references L f s) y x → x = a → y = a := by
    intro y x hl
    induction hl with
    | refl => exact id
    | step _ hr _ ih =>
      intro e
      have := ih e
      subst this
      exact hleaf _ hr
  obtain ⟨l2, i1, i2, i3, i4⟩ := result_finds h hu (X := fun x => x ≠ a) (a := a)
    ⟨l, by rw [hs]; simp, hl⟩ (fun x hx e => hv (e ▸ hx))
    (fun l _ _ hne x hx e => hne (key _ _ hx e)) (fun e he x hx hxa => hal e he (key _ _ hx hxa))
    (fun v hv => by
      have hn : a ∉ v := fun h => hv a h rfl
      rcases hroot with h | h
      · exact .visible hn h
      · exact .outside hn h)
  obtain ⟨ms, h1, -, h3'⟩ := result_remaining ⟨o, n, v, v', h⟩
  classical
  have h3 := h3' (fun b l => decide (Removed f b l)) fun b l => by simp
  rw [hs, List.map_append, List.map_append, List.map_cons] at h1
  obtain ⟨m12, rest', rfl, e12, e3⟩ := List.map_eq_append_iff.1 h1
  obtain ⟨x', m2, rfl, e1, e2⟩ := List.map_eq_append_iff.1 e12
  obtain ⟨l', body', rfl, el, eb⟩ := List.map_eq_cons_iff.1 e2
  have lab : ∀ {u w : TLine}, u.noUse = w.noUse → u.isLabel = w.isLabel ∧ u.label = w.label ∧ u.isInternalLabel = w.isInternalLabel ∧
      u.isInlineAsm = w.isInlineAsm ∧ u.isData = w.isData ∧ u.core = w.core := fun e =>
    ⟨(congrArg TLine.isLabel e :), (congrArg TLine.label e :), (congrArg TLine.isInternalLabel e :), (congrArg TLine.isInlineAsm e :),
      (congrArg TLine.isData e :), (congrArg TLine.core e :)⟩
  have find : ∀ {us ws : List TLine}, us.map TLine.noUse = ws.map TLine.noUse → ∀ u ∈ us, ∃ w ∈ ws, u.noUse = w.noUse := by
    intro us ws e u hu
    have : u.noUse ∈ us.map TLine.noUse := List.mem_map_of_mem hu
    rw [e] at this
    obtain ⟨w, h1, h2⟩ := List.mem_map.1 this
    exact ⟨w, h1, h2.symm⟩
  have hused : l'.isUsed = true := by
    rw [h3] at i1
    obtain ⟨l3, j1, rfl⟩ := List.mem_map.1 i1
    have sub : ∀ before ls, ∀ z ∈ remaining (fun b l => decide (Removed f b l)) before ls, z ∈ ls := by
      intro before ls
      induction ls generalizing before with
      | nil => intro z hz; exact hz
      | cons w ls ih =>
        intro z hz
        unfold remaining at hz
        split at hz
        · exact List.mem_cons_of_mem _ (ih _ z hz)
        · rcases List.mem_cons.1 hz with rfl | hz
          · exact List.mem_cons_self
          · exact List.mem_cons_of_mem _ (ih _ z hz)
    have j1 := sub _ _ _ j1
    obtain ⟨src, e⟩ := finishKept_frame p l3
    rw [e] at i2 i3 i4
    have i2 : l3.isLabel = true := i2
    have i3 : l3.label = a := i3
    have no : ∀ y ∈ x ++ body ++ rest, l3.noUse = y.noUse → False := by
      intro y hy e
      exact honce y hy ((lab e).1.symm.trans i2) ((lab e).2.1.symm.trans i3)
    rcases List.mem_append.1 j1 with j | j
    · rcases List.mem_append.1 j with j | j
      · obtain ⟨w, hw, e⟩ := find e1 _ j
        exact (no w (by simp [hw]) e).elim
      · rcases List.mem_cons.1 j with rfl | j
        · exact i4
        · obtain ⟨w, hw, e⟩ := find eb _ j
          exact (no w (by simp [hw]) e).elim
    · obtain ⟨w, hw, e⟩ := find e3 _ j
      exact (no w (by simp [hw]) e).elim
  intro y hy hy1 hy2
  obtain ⟨y', hy', ey⟩ := find eb.symm _ hy
  obtain ⟨k1, -, -, -, k2, k3⟩ := lab ey
  rw [k3]
  refine body_kept (f := f) (x := x') (rest := rest') (fun drop hd => ?_) ((lab el).1.trans hl.1) hused (fun w hw hr => ?_) y' hy' (k1.symm.trans hy1) (k2.symm.trans hy2)
  · rw [h3' drop hd, List.map_map]
    exact List.map_congr_left fun l _ => finishKept_core _ l
  · obtain ⟨w', hw', ew⟩ := find eb w hw
    obtain ⟨c1, -, c2, c3, -⟩ := lab ew
    rw [c2, c3]
    exact hbody w' hw' (c1.symm.trans hr)

/-- An exported function with a compiler-generated label, before an unused function. -/
def sampleBody : Str := b! ".globl f\nf:\n nop\n.L1:\n ret\ng:\n ret\n"

private theorem split_second {P : List TLine → TLine → List TLine → List TLine → Prop} (ls : List TLine) (n : Nat) (h : 1 < ls.length)
    (hp : P (ls.take 1) (ls.getD 1 { id := 0 }) ((ls.drop 2).take n) (ls.drop (2 + n))) : ∃ x l body rest, ls = x ++ l :: body ++ rest ∧ P x l body rest := by
  refine ⟨_, _, _, _, ?_, hp⟩
  obtain _ | ⟨a, _ | ⟨b, ls⟩⟩ := ls
  · simp at h
  · simp at h
  · simp [Nat.add_comm 2 n]

/-- The hypotheses of `C64_body_partial` hold for `sampleBody`, and its code is in the output. -/
example : ∃ p, TextResult Locale.utf8 { unusedLabels := true } sampleBody p ∧ p.outputText = b! ".globl f\nf:\n nop\n ret\n" ∧
    references Locale.utf8 { unusedLabels := true } sampleBody = { usercode := [b! "f"], used := [(b! "f", [[]])] } ∧
    ∃ x l body rest, heldLines Locale.utf8 { unusedLabels := true } sampleBody = x ++ l :: body ++ rest ∧ (l.isLabel = true ∧ l.label = b! "f") ∧
      (∀ y ∈ x ++ body ++ rest, y.isLabel = true → y.label ≠ b! "f") ∧
      (∀ y ∈ body, y.isLabel = true → y.isInternalLabel = true ∨ y.isInlineAsm = true) ∧
      body.map (fun y => (y.text, y.isLabel, y.isData)) = [(b! " nop", false, false), (b! ".L1:", true, false), (b! " ret", false, false)] := by
  obtain ⟨p, h1, h2⟩ := textRun_exists (f := { unusedLabels := true }) (s := sampleBody)
    (P := fun p => p.outputText = b! ".globl f\nf:\n nop\n ret\n") (by decide +kernel)
  refine ⟨p, h1, h2, by decide +kernel, split_second _ 3 ?_ ⟨?_, ?_, ?_, ?_⟩⟩ <;> decide +kernel

/-- A local label with a number, referred to as `1b`, hides the rest of an exported function. -/
theorem C64_violation : ∃ p, TextResult Locale.utf8 { unusedLabels := true } b! ".globl f\nf:\n nop\n1:\n dec eax\n jne 1b\n ret\n" p ∧
    p.outputText = b! ".globl f\nf:\n nop\n" :=
  textRun_exists (by decide +kernel)

/-- So does an assignment, even if its name is used by the code after it. -/
theorem C64_violation_assignment : ∃ p, TextResult Locale.utf8 { unusedLabels := true } b! ".globl f\nf:\n nop\nx = 5\n mov eax, x\n ret\n" p ∧
    p.outputText = b! ".globl f\nf:\n nop\n" :=
  textRun_exists (by decide +kernel)

end AsmParser
