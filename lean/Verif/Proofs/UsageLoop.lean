/-
Helper lemmas: the usage analysis for all labels of an input.
-/
import Verif.Proofs.Usage
import Verif.Proofs.TextOut
import Verif.Proofs.TextInv

namespace AsmParser

attribute [local irreducible] Re.search Re.fullMatch

/-! ### Termination -/

/-- All labels in a table. -/
def tableNodes (m : List (Str × List Str)) : List Str := m.map (·.1) ++ m.flatMap (·.2)

theorem refers_nodes {m : List (Str × List Str)} {a b : Str} (h : Refers m a b) : a ∈ tableNodes m ∧ b ∈ tableNodes m := by
  obtain ⟨rs, h1, h2⟩ := h
  unfold tableNodes
  rw [List.mem_append, List.mem_append]
  exact ⟨.inl (List.mem_map.2 ⟨_, h1, rfl⟩), .inr (List.mem_flatMap.2 ⟨_, h1, h2⟩)⟩

/-- All labels of the analysis. -/
def usageNodes (g : Usage) : List Str :=
  tableNodes g.used ++ tableNodes g.dataUsed ++ tableNodes g.weaklyUsed ++ g.aliased.map (·.2)

theorem ref_nodes {g : Usage} {a b : Str} (h : CodeRef g a b ∨ DataRef g a b) : a ∈ usageNodes g ∧ b ∈ usageNodes g := by
  unfold usageNodes
  simp only [List.mem_append]
  rcases h with h | h | h
  · have := refers_nodes h; exact ⟨.inl (.inl (.inl this.1)), .inl (.inl (.inl this.2))⟩
  · have := refers_nodes h; exact ⟨.inl (.inl (.inr this.1)), .inl (.inl (.inr this.2))⟩
  · have := refers_nodes h; exact ⟨.inl (.inr this.1), .inl (.inr this.2)⟩

open Classical in
/-- The number of labels that are ahead of a label. -/
noncomputable def aheadCount (g : Usage) (a : Str) : Nat := (usageNodes g).countP fun x => decide (Leads g a x)

theorem ranked_ahead {g : Usage} (h : NoDataCycle g) : Ranked g (aheadCount g) := by
  classical
  refine ⟨fun a b hu hr => ?_, fun a b hu hr => ?_⟩
  · unfold aheadCount
    refine List.countP_mono_left fun x _ hx => ?_
    rw [decide_eq_true_eq] at hx ⊢
    exact .step hu (.inl hr) hx
  · unfold aheadCount
    refine countP_lt (ref_nodes (.inr hr)).1 ?_ ?_ ?_
    · rw [decide_eq_false_iff_not]; exact h a b hu hr
    · rw [decide_eq_true_eq]; exact .refl
    · intro x _ hx
      rw [decide_eq_true_eq] at hx ⊢
      exact .step hu (.inr hr) hx

theorem mem_of_lookup_str {β : Type} {m : List (Str × β)} {a : Str} {x : β} (h : m.lookup a = some x) : (a, x) ∈ m := by
  induction m with
  | nil => exact absurd h (by simp)
  | cons e m ih =>
    rw [List.lookup_cons] at h
    split at h
    · rename_i he
      simp only [Option.some.injEq] at h
      have : a = e.1 := by simpa using he
      rw [this, ← h]; simp
    · exact List.mem_cons_of_mem _ (ih h)

theorem markLine_total {g : Usage} {o : Order} {n : Nat} {nodes : List Str} (ha : ∀ e ∈ g.aliased, e.2 ∈ nodes)
    (ht : ∀ a ∈ nodes, ∀ v, isUsed g o n a 1 v ≠ none) (line : TLine) (hl : line.label ∈ nodes) (v : List Str) :
    markLine g o n line v ≠ none := by
  have h2 : ∀ a v, isUsedThroughAlias g o n a v ≠ none := by
    intro a v
    unfold isUsedThroughAlias
    split
    · rename_i x hx
      exact ht _ (ha _ (mem_of_lookup_str hx)) v
    · simp
  have h3 : ∀ a v, isDataUsedThroughAlias g o n a v ≠ none := by
    intro a v
    unfold isDataUsedThroughAlias
    exact anyRef_total (P := fun _ => True) (fun r _ v _ => h2 r v) (fun _ _ _ _ _ _ => trivial) trivial
  unfold markLine
  split
  · rename_i h; exact absurd h (ht _ hl v)
  · simp
  · split
    · rename_i h; exact absurd h (h3 _ _)
    · simp
    · split
      · rename_i h; exact absurd h (h2 _ _)
      · simp
      · simp

theorem markLoop_total {o : Order} {n : Nat} {nodes : List Str} (g : Usage) (ha : ∀ e ∈ g.aliased, e.2 ∈ nodes)
    (ht : ∀ a ∈ nodes, ∀ v, isUsed g o n a 1 v ≠ none) (names : List Str) (p : TParser) (hg : p.usage = g)
    (hl : ∀ l ∈ p.lines, l.label ∈ nodes) (v : List Str) : TParser.markLoop o n names p v ≠ none := by
  induction names generalizing p v with
  | nil => simp [TParser.markLoop]
  | cons a names ih =>
    unfold TParser.markLoop
    simp only
    split
    · exact ih { p with ub := true } hg hl v
    · rename_i line hline
      have hm := List.mem_of_getElem? hline
      split
      · rename_i h
        rw [hg] at h
        exact absurd h (markLine_total ha ht line (hl _ hm) v)
      · rename_i line' v2 h
        refine ih { p with lines := p.lines.set _ line' } hg ?_ v2
        intro l hl'
        rcases List.mem_or_eq_of_mem_set hl' with h' | h'
        · exact hl _ h'
        · rw [h']
          have := congrArg TLine.label (markLine_noUse h)
          have e : line'.label = line.label := this
          rw [e]; exact hl _ hm

/-- The analysis ends if no reference from data is on a cycle. -/
theorem fromStream_total (L : Locale) (f : Filter) (s : Str) (o : Order) (v : List Str) (h : NoDataCycle (references L f s)) :
    ∃ n, ∀ m, n ≤ m → ∃ r, (TParser.init f).fromStream L o m s v = some r := by
  let p := ((TParser.init f).readStream L s).filterNonLabels
  have hr : Ranked p.usage (aheadCount p.usage) := ranked_ahead h
  let nodes := usageNodes p.usage ++ p.lines.map TLine.label
  let R := (usageNodes p.usage).length
  have hR : ∀ a ∈ nodes, aheadCount p.usage a ≤ R := fun a _ => List.countP_le_length
  have hn : ∀ a b, CodeRef p.usage a b ∨ DataRef p.usage a b → b ∈ nodes := fun a b h => List.mem_append_left _ (ref_nodes h).2
  refine ⟨R * (nodes.length + 1) + nodes.length + 1 + (2 * R + 1), fun n hn' => ?_⟩
  have ht : ∀ a ∈ nodes, ∀ v, isUsed p.usage o n a 1 v ≠ none := by
    intro a ha v
    refine isUsed_ends hr hn hR ha ?_
    have := hR a ha
    omega
  have := markLoop_total (nodes := nodes) p.usage ?_ ht (o.run .labels (p.labelsDefined.map (·.1))) p rfl ?_ v
  · obtain ⟨⟨q, v'⟩, hq⟩ := Option.ne_none_iff_exists'.1 this
    refine ⟨(q.removeUnused, v'), ?_⟩
    unfold TParser.fromStream TParser.markLabelUsage
    rw [hq]
  · intro e he
    refine List.mem_append_left _ ?_
    unfold usageNodes
    exact List.mem_append_right _ (List.mem_map_of_mem he)
  · intro l hl
    exact List.mem_append_right _ (List.mem_map_of_mem hl)

/-! ### Fuel -/

theorem markLine_mono {g : Usage} {o : Order} {n m : Nat} (hm : n ≤ m) {l : TLine} {v : List Str} {x : TLine × List Str}
    (h : markLine g o n l v = some x) : markLine g o m l v = some x := by
  have h1 : ∀ a v x, isUsedThroughAlias g o n a v = some x → isUsedThroughAlias g o m a v = some x := by
    intro a v x h
    unfold isUsedThroughAlias at h ⊢
    split at h
    · exact isUsed_mono h m hm
    · exact h
  have h2 : ∀ a v x, isDataUsedThroughAlias g o n a v = some x → isDataUsedThroughAlias g o m a v = some x := by
    intro a v x h
    unfold isDataUsedThroughAlias at h ⊢
    exact anyRef_mono (fun r _ => h1 r) h
  unfold markLine at h ⊢
  split at h
  · exact absurd h (by simp)
  · rename_i h'; rw [isUsed_mono h' m hm]; exact h
  · rename_i h'
    rw [isUsed_mono h' m hm]
    simp only
    split at h
    · exact absurd h (by simp)
    · rename_i h'; rw [h2 _ _ _ h']; exact h
    · rename_i h'
      rw [h2 _ _ _ h']
      simp only
      split at h
      · exact absurd h (by simp)
      · rename_i h'; rw [h1 _ _ _ h']; exact h
      · rename_i h'; rw [h1 _ _ _ h']; exact h

theorem markLoop_mono {o : Order} {n m : Nat} (hm : n ≤ m) (names : List Str) (p : TParser) (v : List Str) {x : TParser × List Str}
    (h : TParser.markLoop o n names p v = some x) : TParser.markLoop o m names p v = some x := by
  induction names generalizing p v with
  | nil => simpa [TParser.markLoop] using h
  | cons a names ih =>
    unfold TParser.markLoop at h ⊢
    simp only at h ⊢
    split at h
    · exact ih _ _ h
    · rename_i line e
      split at h
      · exact absurd h (by simp)
      · rename_i h'
        rw [markLine_mono hm h']
        exact ih _ _ h

theorem fromStream_mono {L : Locale} {o : Order} {n m : Nat} (hm : n ≤ m) {p : TParser} {s : Str} {v : List Str} {x : TParser × List Str}
    (h : p.fromStream L o n s v = some x) : p.fromStream L o m s v = some x := by
  unfold TParser.fromStream TParser.markLabelUsage at h ⊢
  split at h
  · exact absurd h (by simp)
  · rename_i h'
    rw [markLoop_mono hm _ _ _ h']
    exact h

end AsmParser
