/-
Properties C91 and C92: how much work the analysis of label usage is.
-/
import Verif.Spec.Cost
import Verif.Proofs.Cost
import Verif.Props.Chains
import Verif.Proofs.Ladder

namespace AsmParser

attribute [local irreducible] Re.search Re.fullMatch

section
variable [Recognizers]

/-! ### The tables -/

omit [Recognizers] in
theorem DataUse.defined {ts : List Seen} {a b : Str} (h : DataUse ts a b) : b = [] ∨ Defined ts b := by
  obtain ⟨x, t, y, rfl, -, -, h | ⟨h, -⟩⟩ := h
  · refine h.defined.imp_right fun h => h.mono fun u hu => ?_
    simp only [List.mem_append, List.mem_singleton] at hu
    rcases hu with hu | rfl
    · simp [hu]
    · simp
  · exact h.defined.imp_right fun h => h.mono fun t ht => by simp [ht]

theorem noDataCycle_chain (L : Locale) (f : Filter) (s : Str)
    (h : ∀ a b, (∀ t ∈ seen f s, ¬ t.Exports a) → DataUse (seen f s) a b → ¬ UseChain (seen f s) b a) : NoDataCycle (references L f s) := by
  intro a b ha hr hl
  have hx : ∀ a, a ∉ (references L f s).usercode → ∀ t ∈ seen f s, ¬ t.Exports a := fun a ha t ht he => ha ((C65_exported L f s a).2 ⟨t, ht, he⟩)
  refine h a b (hx a ha) ((C65_data L f s a b).1 hr) ?_
  clear h hr ha
  induction hl with
  | refl => exact .refl
  | step h1 h2 _ ih => exact .step (hx _ h1) (h2.imp (C65_code L f s _ _).1 (C65_data L f s _ _).1) ih

theorem keys_defined (L : Locale) (f : Filter) (s : Str) (a : Str) :
    a ∈ ((TParser.init f).readStream L s).labelsDefined.map (·.1) ↔ Defined (seen f s) a := by
  rw [show Defined (seen f s) a ↔ _ from (C65_defined L f s a).symm, List.mem_map]
  exact ⟨fun ⟨⟨x, k⟩, h1, h2⟩ => ⟨k, h2 ▸ h1⟩, fun ⟨k, h⟩ => ⟨_, h, rfl⟩⟩

theorem idle_text (L : Locale) (f : Filter) (s : Str) (h : NoReason (seen f s)) : Idle (references L f s) (Defined (seen f s)) where
  toCodeOnly := codeOnly_text L f s h.data
  visible a ha hu := h.exported a ha ((C65_exported L f s a).1 hu)
  outside a ha hc := h.outside a ha ((C65_code L f s a []).1 hc).2

theorem trail_text (L : Locale) (f : Filter) (s : Str) {c : List Str} (h : Trail (seen f s) c) :
    ∃ a, Defined (seen f s) a ∧ c.head? = some a ∧ ∀ v, (∀ x ∈ c, x ∉ v) → GTrail (references L f s) v a c := by
  induction h with
  | one h => exact ⟨_, h, rfl, fun v hv => .one (hv _ (by simp))⟩
  | @step a b c h1 h2 h3 _ ih =>
    obtain ⟨b', h4, h5, h6⟩ := ih
    simp only [List.head?_cons, Option.some.injEq] at h5
    subst h5
    refine ⟨a, h1, rfl, fun v hv => .step (hv _ (by simp)) ((C65_code L f s a b).2 ⟨h1, h2⟩) (h6 _ fun x hx => ?_)⟩
    intro hm
    rcases List.mem_cons.1 hm with rfl | hm
    · exact h3 hx
    · exact hv x (List.mem_cons_of_mem _ hx) hm

omit [Recognizers] in
theorem fromStreamC_loop {L : Locale} {f : Filter} {o : Order} {n : Nat} {s : Str} {v v' : List Str} {p : TParser} {k : Nat}
    (h : (TParser.init f).fromStreamC L o n s v = some (p, v', k)) :
    ∃ q, ((TParser.init f).readStream L s).filterNonLabels.markLoopC o n
      (o.run .labels (((TParser.init f).readStream L s).labelsDefined.map (·.1))) v = some (q, v', k) := by
  unfold TParser.fromStreamC at h
  simp only at h
  split at h
  · cases h
  · rename_i q w m hm
    simp only [Option.some.injEq, Prod.mk.injEq] at h
    obtain ⟨-, rfl, rfl⟩ := h
    exact ⟨q, hm⟩

omit [Recognizers] in
/-- What the calls are counted in is the parser of the model: without the counter, the results are the same. -/
theorem C91_counter (L : Locale) (o : Order) (n : Nat) (p : TParser) (s : Str) (v : List Str) :
    (p.fromStreamC L o n s v).map (fun x => (x.1, x.2.1)) = p.fromStream L o n s v := fromStreamC_forget L o n p s v

/-- C91: if nothing gives a reason to keep a label, there is a call for each chain of references, so that the calls cannot be
fewer than the chains. -/
theorem C91_chains (L : Locale) (f : Filter) (s : Str) (k : Nat) (hk : Calls L f s k) (h : NoReason (seen f s))
    (cs : List (List Str)) (hn : cs.Nodup) (hc : ∀ c ∈ cs, Trail (seen f s) c) : cs.length ≤ k := by
  obtain ⟨o, n, p, v', hr⟩ := hk
  obtain ⟨q, hm⟩ := fromStreamC_loop hr
  obtain ⟨e0, -, hinv⟩ := textInv L f s
  have hperm := o.perm .labels (((TParser.init f).readStream L s).labelsDefined.map (·.1))
  refine (markLoopC_idle _ (hperm.nodup_iff.2 hinv.table.nodup) (S := Defined (seen f s)) (idle_text L f s h)
    (fun a ha => (keys_defined L f s a).1 (hperm.mem_iff.1 ha)) (fun a ha => points_read L f s a (hperm.mem_iff.1 ha)) hm).1 cs hn fun c hcc => ?_
  obtain ⟨a, h1, h2, h3⟩ := trail_text L f s (hc c hcc)
  exact ⟨a, hperm.mem_iff.2 ((keys_defined L f s a).2 h1), h3 [] (by simp)⟩

/-- C91 (partial): if no data mentions a label that is defined, and each label is mentioned by at most one function, the number of
calls is at most quadratic in the number of labels.  Missing: labels that are mentioned by several functions. -/
theorem C91_calls_partial (L : Locale) (f : Filter) (s : Str) (k : Nat) (hk : Calls L f s k)
    (hd : ∀ a b, Defined (seen f s) a → ¬ DataUse (seen f s) a b)
    (h1 : ∀ a b b', Defined (seen f s) a → CodeUse (seen f s) a b → CodeUse (seen f s) a b' → b = b')
    (labels : List Str) (hl : ∀ a, Defined (seen f s) a → a ∈ labels) : k ≤ 2 * labels.length * (labels.length + 1) := by
  obtain ⟨o, n, p, v', hr⟩ := hk
  obtain ⟨q, hm⟩ := fromStreamC_loop hr
  obtain ⟨e0, -, hinv⟩ := textInv L f s
  have hperm := o.perm .labels (((TParser.init f).readStream L s).labelsDefined.map (·.1))
  have hlin : Linear (references L f s) (Defined (seen f s)) :=
    { toCodeOnly := codeOnly_text L f s hd
      once := references_once L f s
      one := fun a b b' ha h2 h3 => h1 a b b' ha ((C65_code L f s a b).1 h2).2 ((C65_code L f s a b').1 h3).2 }
  have h2 := markLoopC_linear (S := Defined (seen f s)) hl _ hlin
    (fun a ha => (keys_defined L f s a).1 (hperm.mem_iff.1 ha)) (fun a ha => points_read L f s a (hperm.mem_iff.1 ha)) hm
  have h3 : (o.run .labels (((TParser.init f).readStream L s).labelsDefined.map (·.1))).length ≤ labels.length :=
    nodup_length_le (hperm.nodup_iff.2 hinv.table.nodup) fun a ha => hl a ((keys_defined L f s a).1 (hperm.mem_iff.1 ha))
  have h4 := Nat.mul_le_mul_right (2 * (labels.length + 1)) h3
  have h5 : 2 * labels.length * (labels.length + 1) = labels.length * (2 * (labels.length + 1)) := by
    rw [Nat.mul_comm 2, Nat.mul_assoc]
  rw [h5]
  exact Nat.le_trans h2 h4

/-- C92 (partial): if no data mentions a label that is defined, the calls are nested at most one deeper than there are labels.
Missing: data that mentions labels. -/
theorem C92_depth_partial (L : Locale) (f : Filter) (s : Str) (hd : ∀ a b, Defined (seen f s) a → ¬ DataUse (seen f s) a b)
    (labels : List Str) (hl : ∀ a, Defined (seen f s) a → a ∈ labels) : Depth L f s (labels.length + 1) := by
  intro o v
  have hperm := o.perm .labels (((TParser.init f).readStream L s).labelsDefined.map (·.1))
  have h := markLoop_nested (S := Defined (seen f s)) hl (o := o) (Nat.le_refl (labels.length + 1)) _ (p := ((TParser.init f).readStream L s).filterNonLabels)
    (v := v) (codeOnly_text L f s hd)
    (fun a ha => (keys_defined L f s a).1 (hperm.mem_iff.1 ha)) (fun a ha => points_read L f s a (hperm.mem_iff.1 ha))
  unfold TParser.fromStream TParser.markLabelUsage
  cases hm : ((TParser.init f).readStream L s).filterNonLabels.markLoop o (labels.length + 1)
      (o.run .labels (((TParser.init f).readStream L s).filterNonLabels.labelsDefined.map (·.1))) v with
  | none => exact absurd hm h
  | some x => exact ⟨_, rfl⟩

/-- C92 (partial): in general, if no reference from data is part of a cycle of references through labels that are not exported, the
calls are nested at most (N + 3)² deep for N labels.  Missing: such cycles, for which parsing may not terminate (see C41). -/
theorem C92_acyclic_partial (L : Locale) (f : Filter) (s : Str)
    (h : ∀ a b, (∀ t ∈ seen f s, ¬ t.Exports a) → DataUse (seen f s) a b → ¬ UseChain (seen f s) b a)
    (labels : List Str) (hl : ∀ a, Defined (seen f s) a → a ∈ labels) : Depth L f s ((labels.length + 3) ^ 2) := by
  intro o v
  have hn : ∀ a b, CodeRef (references L f s) a b ∨ DataRef (references L f s) a b → b ∈ [] :: labels := by
    intro a b hr
    have : b = [] ∨ Defined (seen f s) b := by
      rcases hr with hr | hr
      · exact ((C65_code L f s a b).1 hr).2.defined
      · exact ((C65_data L f s a b).1 hr).defined
    rcases this with rfl | h
    · exact List.mem_cons_self
    · exact List.mem_cons_of_mem _ (hl b h)
  have hlen : ([] :: labels : List Str).length * ([] :: labels : List Str).length + 4 * ([] :: labels : List Str).length + 1 ≤ (labels.length + 3) ^ 2 := by
    rw [List.length_cons, Nat.pow_two]
    simp only [Nat.add_mul, Nat.mul_add]
    omega
  have ht : ∀ a ∈ [] :: labels, ∀ v, isUsed (references L f s) o ((labels.length + 3) ^ 2) a 1 v ≠ none :=
    fun a ha v => isUsed_acyclic (noDataCycle_chain L f s h) hn hlen ha v
  obtain ⟨_, -, hinv⟩ := textInv L f s
  have := markLoop_total (nodes := [] :: labels) (references L f s)
    (fun e he => List.mem_cons_of_mem _ (hl _ ((C65_same_address L f s e.1 e.2).1 he).defined)) ht
    (o.run .labels (((TParser.init f).readStream L s).filterNonLabels.labelsDefined.map (·.1))) ((TParser.init f).readStream L s).filterNonLabels rfl
    (fun l hm => by
      have hm' : l ∈ ((TParser.init f).readStream L s).lines := hm
      rcases hinv.lines l hm' with e | e
      · have : l.label = [] := (congrArg TLine.label e :)
        rw [this]
        exact List.mem_cons_self
      · rcases e.label with ⟨h1, -⟩ | ⟨-, h1, -⟩
        · obtain ⟨k, hk⟩ := Option.isSome_iff_exists.1 (hinv.table.complete l hm' h1)
          exact List.mem_cons_of_mem _ (hl _ ((keys_defined L f s _).1 (List.mem_map.2 ⟨_, mem_of_lookup hk, rfl⟩)))
        · rw [h1]
          exact List.mem_cons_self) v
  unfold TParser.fromStream TParser.markLabelUsage
  cases hm : ((TParser.init f).readStream L s).filterNonLabels.markLoop o ((labels.length + 3) ^ 2)
      (o.run .labels (((TParser.init f).readStream L s).filterNonLabels.labelsDefined.map (·.1))) v with
  | none => exact absurd hm this
  | some x => exact ⟨_, rfl⟩

/-- In `sampleAlias`, data below `t` mentions `h`, and there is no such cycle. -/
example : DataUse (seen {} sampleAlias) b! "h" b! "t" ∧
    ∀ a b, (∀ t ∈ seen {} sampleAlias, ¬ t.Exports a) → DataUse (seen {} sampleAlias) a b → ¬ UseChain (seen {} sampleAlias) b a := by
  have e : references Locale.utf8 {} sampleAlias =
      { usercode := [b! "f"], used := [(b! "f", [[]])], dataUsed := [(b! "h", [b! "t"])], aliased := [(b! "g", b! "f")] } := by
    decide +kernel
  have hd : ∀ a b, DataUse (seen {} sampleAlias) a b → a = b! "h" ∧ b = b! "t" := by
    intro a b h
    have hr := (C65_data Locale.utf8 {} _ _ _).2 h
    rw [e] at hr
    rcases hr with ⟨rs, h1, h2⟩ | ⟨rs, h1, h2⟩
    · simp only [List.mem_singleton, Prod.mk.injEq] at h1
      rw [h1.2] at h2
      exact ⟨h1.1, by simpa using h2⟩
    · exact absurd h1 (by simp)
  refine ⟨(C65_data Locale.utf8 {} _ _ _).1 (.inl ⟨[b! "t"], by rw [e]; decide, by decide⟩), fun a b _ h hl => ?_⟩
  obtain ⟨rfl, rfl⟩ := hd a b h
  cases hl with
  | step _ hr _ =>
    rcases hr with ⟨h1, h2⟩ | h2
    · obtain ⟨rs, h3, -⟩ := (C65_code Locale.utf8 {} _ _ _).2 ⟨h1, h2⟩
      rw [e] at h3
      simp at h3
    · exact absurd (hd _ _ h2).1 (by decide)

/-- C92: if nothing gives a reason to keep a label, the calls are nested as deep as the longest chain of references. -/
theorem C92_chains (L : Locale) (f : Filter) (s : Str) (o : Order) (n : Nat) (p : TParser) (v' : List Str)
    (hr : (TParser.init f).fromStream L o n s [] = some (p, v')) (h : NoReason (seen f s))
    (c : List Str) (hc : Trail (seen f s) c) : c.length ≤ n := by
  rw [← fromStreamC_forget] at hr
  rw [Option.map_eq_some_iff] at hr
  obtain ⟨⟨p1, v1, k⟩, hr, -⟩ := hr
  obtain ⟨q, hm⟩ := fromStreamC_loop hr
  obtain ⟨e0, -, hinv⟩ := textInv L f s
  have hperm := o.perm .labels (((TParser.init f).readStream L s).labelsDefined.map (·.1))
  refine (markLoopC_idle _ (hperm.nodup_iff.2 hinv.table.nodup) (S := Defined (seen f s)) (idle_text L f s h)
    (fun a ha => (keys_defined L f s a).1 (hperm.mem_iff.1 ha)) (fun a ha => points_read L f s a (hperm.mem_iff.1 ha)) hm).2 c ?_
  obtain ⟨a, h1, h2, h3⟩ := trail_text L f s hc
  exact ⟨a, hperm.mem_iff.2 ((keys_defined L f s a).2 h1), h3 [] (by simp)⟩

theorem ladder_seen (n : Nat) : seen {} (unlines (ladder n)) = seenLines (ladder n) := easy_seen _ (ladder_easy n)

theorem ladder_reason (n : Nat) : NoReason (seen {} (unlines (ladder n))) := by
  rw [ladder_seen]
  exact ladder_noReason n

theorem ladder_depth (L : Locale) (n : Nat) : ∃ m, Depth L {} (unlines (ladder n)) m :=
  ⟨_, C92_depth_partial L {} _ (ladder_reason n).data _ fun a ha => (keys_defined L {} _ a).2 ha⟩

theorem ladder_calls (L : Locale) (n : Nat) : ∃ k, Calls L {} (unlines (ladder n)) k := by
  obtain ⟨m, hm⟩ := ladder_depth L n
  obtain ⟨r, hr⟩ := hm Order.id []
  rw [← fromStreamC_forget, Option.map_eq_some_iff] at hr
  obtain ⟨⟨p, v, k⟩, hr, -⟩ := hr
  exact ⟨k, Order.id, m, p, v, hr⟩

/-- C91 is violated: without any filter, there is an input for each `n`, whose length is quadratic in `n`, such that parsing it takes
at least `2 ^ (n + 1)` calls, whatever the iteration order.  (It has `2 * n + 2` functions.) -/
theorem C91_exponential (L : Locale) (n : Nat) :
    (unlines (ladder n)).length ≤ (6 * n + 4) * (n + 8) ∧ (∃ k, Calls L {} (unlines (ladder n)) k) ∧
      ∀ k, Calls L {} (unlines (ladder n)) k → 2 ^ (n + 1) ≤ k := by
  refine ⟨ladder_length n, ladder_calls L n, fun k hk => ?_⟩
  rw [← climbs_length 0 n]
  refine C91_chains L {} _ k hk (ladder_reason n) _ (climbs_nodup 0 n) fun c hc => ?_
  rw [ladder_seen]
  exact (climbs_trail (by omega) hc).1

omit [Recognizers] in
theorem square_le (d : Nat) : 2 * (d * d) + 19 * d ≤ 64 * 2 ^ d := by
  induction d with
  | zero => simp
  | succ d ih =>
    have h1 : (d + 1) * (d + 1) = d * d + 2 * d + 1 := by
      rw [Nat.add_mul, Nat.mul_add]; omega
    have h2 : d < 2 ^ d := Nat.lt_two_pow_self
    rw [h1, Nat.pow_succ]
    omega

/-- C91 is violated: the number of calls is not bounded by any power of the length of the input. -/
theorem C91_violation (L : Locale) (d : Nat) : ∃ s, (∃ k, Calls L {} s k) ∧ ∀ k, Calls L {} s k → s.length ^ d < k := by
  obtain ⟨h1, h2, h3⟩ := C91_exponential L (2 ^ (d + 6))
  refine ⟨_, h2, fun k hk => ?_⟩
  have h4 := h3 k hk
  have h5 : (6 * 2 ^ (d + 6) + 4) * (2 ^ (d + 6) + 8) ≤ 2 ^ (2 * d + 19) := by
    have : 4 ≤ 2 ^ (d + 6) := Nat.le_trans (by decide) (Nat.pow_le_pow_right (by decide) (show 2 ≤ d + 6 by omega))
    have : 8 ≤ 2 ^ (d + 6) := Nat.le_trans (by decide) (Nat.pow_le_pow_right (by decide) (show 3 ≤ d + 6 by omega))
    have e : 2 ^ (2 * d + 19) = 2 ^ ((d + 6) + 4) * 2 ^ ((d + 6) + 3) := by rw [← Nat.pow_add]; congr 1; omega
    rw [e]
    apply Nat.mul_le_mul
    · rw [Nat.pow_add 2 (d + 6) 4]; omega
    · rw [Nat.pow_add 2 (d + 6) 3]; omega
  have h6 : (unlines (ladder (2 ^ (d + 6)))).length ^ d ≤ 2 ^ ((2 * d + 19) * d) := by
    rw [Nat.pow_mul]
    exact Nat.pow_le_pow_left (Nat.le_trans h1 h5) d
  have h7 : (2 * d + 19) * d < 2 ^ (d + 6) + 1 := by
    have := square_le d
    rw [Nat.add_mul, Nat.mul_assoc, Nat.pow_add 2 d 6]
    omega
  exact Nat.lt_of_le_of_lt h6 (Nat.lt_of_lt_of_le (Nat.pow_lt_pow_right (by decide) h7) h4)

/-- C92 is violated: whatever the size `n` of the stack, there is an input, whose length is quadratic in `n`, that needs more, although
parsing it terminates. -/
theorem C92_violation (L : Locale) (n : Nat) : ∃ s, s.length ≤ (6 * n + 4) * (n + 8) ∧ (∃ m, Depth L {} s m) ∧
    ∀ o, (TParser.init {}).fromStream L o n s [] = none := by
  refine ⟨_, ladder_length n, ladder_depth L n, fun o => ?_⟩
  cases hr : (TParser.init {}).fromStream L o n (unlines (ladder n)) [] with
  | none => rfl
  | some r =>
    obtain ⟨p, v'⟩ := r
    have hmem : ∃ c, c ∈ climbs 0 n := List.exists_mem_of_length_pos (by rw [climbs_length]; exact Nat.two_pow_pos _)
    obtain ⟨c, hc⟩ := hmem
    obtain ⟨h1, h2⟩ := climbs_trail (n := n) (by omega) hc
    rw [← ladder_seen] at h1
    have := C92_chains L {} _ o n p v' hr (ladder_reason n) c h1
    omega

end

/-- The smallest listings of this kind. -/
example : unlines (ladder 1) =
    b! "a:\n ret\nb:\n ret\n" ++ b! "ax:\n call a\n call b\n" ++ b! "bx:\n call a\n call b\n" := by decide +kernel

/-- Eight calls: one for each of the six chains that begin with `a` or `b`, and one each for `ax` and `bx`. -/
example : ((TParser.init {}).fromStreamC Locale.utf8 Order.id 10 (unlines (ladder 1)) []).map (·.2.2) = some 8 := by decide +kernel

/-- With each further pair, there are twice as many. -/
example : ((TParser.init {}).fromStreamC Locale.utf8 Order.rev 10 (unlines (ladder 3)) []).map (·.2.2) = some 52 := by decide +kernel

/-- In `sampleCall` no data mentions a label, and each label is mentioned by at most one function. -/
example : (∀ a b, Defined (seen { unusedLabels := true } sampleCall) a → ¬ DataUse (seen { unusedLabels := true } sampleCall) a b) ∧
    (∀ a b b', Defined (seen { unusedLabels := true } sampleCall) a → CodeUse (seen { unusedLabels := true } sampleCall) a b →
      CodeUse (seen { unusedLabels := true } sampleCall) a b' → b = b') ∧ ∃ k, Calls Locale.utf8 { unusedLabels := true } sampleCall k := by
  have e : references Locale.utf8 { unusedLabels := true } sampleCall =
      { usercode := [b! "main"], used := [(b! "main", [[]]), (b! ".L2", [b! "main"])] } := by decide +kernel
  refine ⟨fun a b _ hab => ?_, fun a b b' ha h1 h2 => ?_, ?_⟩
  · rcases (C65_data Locale.utf8 _ _ _ _).2 hab with ⟨rs, h1, -⟩ | ⟨rs, h1, -⟩ <;> rw [e] at h1 <;> cases h1
  · obtain ⟨rs, g1, g2⟩ := (C65_code Locale.utf8 _ _ _ _).2 ⟨ha, h1⟩
    obtain ⟨rs', g3, g4⟩ := (C65_code Locale.utf8 _ _ _ _).2 ⟨ha, h2⟩
    rw [e] at g1 g3
    simp only [List.mem_cons, Prod.mk.injEq, List.not_mem_nil, or_false] at g1 g3
    rcases g1 with ⟨rfl, rfl⟩ | ⟨rfl, rfl⟩ <;> rcases g3 with ⟨g3, rfl⟩ | ⟨g3, rfl⟩
    · rw [List.mem_singleton.1 g2, List.mem_singleton.1 g4]
    · exact absurd g3 (by decide)
    · exact absurd g3 (by decide)
    · rw [List.mem_singleton.1 g2, List.mem_singleton.1 g4]
  · let r := (TParser.init { unusedLabels := true }).fromStreamC Locale.utf8 Order.id 10 sampleCall []
    exact ⟨(r.get (by decide +kernel)).2.2, Order.id, 10, (r.get (by decide +kernel)).1, (r.get (by decide +kernel)).2.1, (Option.some_get _).symm⟩

end AsmParser
