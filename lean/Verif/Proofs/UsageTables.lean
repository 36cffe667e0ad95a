/-
Helper lemmas: the tables of references after reading an input.
-/
import Verif.Proofs.UsageRead
import Verif.Proofs.TextLive

namespace AsmParser

attribute [local irreducible] Re.search Re.fullMatch

/-! ### Lines -/

/-- A relation between the lines that is kept by appending lines and by changing source references. -/
def Grows (a b : List TLine) : Prop := ∃ m x, Amended a m ∧ b = m ++ x

theorem Grows.amended {a b : List TLine} (h : Amended a b) : Grows a b := ⟨b, [], h, by simp⟩

theorem Grows.mem {a b : List TLine} (h : Grows a b) {l : TLine} (hl : l ∈ a) : ∃ l' ∈ b, l'.noSrc = l.noSrc := by
  obtain ⟨m, x, am, rfl⟩ := h
  obtain ⟨l', h1, h2⟩ := Amended.mem (a := m) (b := a) am.symm hl
  exact ⟨l', List.mem_append_left _ h1, h2⟩

theorem LabelOf.grows {a b : List TLine} (h : Grows a b) {x : Str} (hx : LabelOf a x) : LabelOf b x := by
  rcases hx with hx | ⟨l, hl, h1, h2⟩
  · exact .inl hx
  · obtain ⟨l', h3, e⟩ := h.mem hl
    have e1 : l'.isLabel = l.isLabel := by have := congrArg TLine.isLabel e; exact this
    have e2 : l'.label = l.label := by have := congrArg TLine.label e; exact this
    exact .inr ⟨l', h3, e1.trans h1, e2.trans h2⟩

theorem DeclaredBy.mono {f : Filter} {a b : List Str} (h : ∀ x ∈ a, x ∈ b) {kws : List Str} {x : Str} (hx : DeclaredBy f a kws x) :
    DeclaredBy f b kws x := by
  obtain ⟨r, h1, h2⟩ := hx
  exact ⟨r, h r h1, h2⟩

theorem CodeEvidence.grows {f : Filter} {d d' : List Str} {a b : List TLine} (hd : ∀ x ∈ d, x ∈ d') (h : Grows a b) {x y : Str}
    (hx : CodeEvidence f d a x y) : CodeEvidence f d' b x y := by
  rcases hx with ⟨l, hl, h1, h2, h3, h4⟩ | ⟨h1, h2⟩
  · obtain ⟨l', h5, e⟩ := h.mem hl
    have e1 : l'.isLabel = l.isLabel := by have := congrArg TLine.isLabel e; exact this
    have e2 : l'.hasOpcode = l.hasOpcode := by have := congrArg TLine.hasOpcode e; exact this
    have e3 : l'.closestParentLabel = l.closestParentLabel := by have := congrArg TLine.closestParentLabel e; exact this
    have e4 : l'.labels = l.labels := by have := congrArg TLine.labels e; exact this
    exact .inl ⟨l', h5, e1.trans h1, e2.trans h2, e3.trans h3, by rw [e4]; exact h4⟩
  · exact .inr ⟨h1.grows h, h2.mono hd⟩

theorem DataEvidence.grows {a b : List TLine} (h : Grows a b) {x y : Str} (hx : DataEvidence a x y) : DataEvidence b x y := by
  obtain ⟨h0, l, hl, h1, h2, h4⟩ := hx
  refine ⟨h0.grows h, ?_⟩
  obtain ⟨l', h5, e⟩ := h.mem hl
  have e1 : l'.isLabel = l.isLabel := by have := congrArg TLine.isLabel e; exact this
  have e2 : l'.isData = l.isData := by have := congrArg TLine.isData e; exact this
  have e4 : l'.labels = l.labels := by have := congrArg TLine.labels e; exact this
  exact ⟨l', h5, e1.trans h1, e2.trans h2, by rw [e4]; exact h4⟩

theorem amended_append {a c d : List TLine} (h : Amended (c ++ d) a) :
    ∃ c' d', a = c' ++ d' ∧ Amended c c' ∧ Amended d d' := by
  unfold Amended at h
  rw [List.map_append] at h
  obtain ⟨c', d', e, h1, h2⟩ := List.map_eq_append_iff.1 h.symm
  exact ⟨c', d', e, h1.symm, h2.symm⟩

theorem amended_cons {l : TLine} {a d : List TLine} (h : Amended (l :: d) a) :
    ∃ l' d', a = l' :: d' ∧ l.noSrc = l'.noSrc ∧ Amended d d' := by
  unfold Amended at h
  rw [List.map_cons] at h
  obtain ⟨l', d', e, h1, h2⟩ := List.map_eq_cons_iff.1 h.symm
  exact ⟨l', d', e, h1.symm, h2.symm⟩

theorem LabelHere.amended {a b : List TLine} (h : Amended a b) {x : Str} (hx : LabelHere a x) : LabelHere b x := by
  obtain ⟨l0, l, ls, rfl, h1, h2, h3, h4⟩ := hx
  obtain ⟨l0', d', rfl, -, am2⟩ := amended_append h
  obtain ⟨l', ls', rfl, e, am⟩ := amended_cons am2
  have e1 : l.isLabel = l'.isLabel := by have := congrArg TLine.isLabel e; exact this
  have e2 : l.isAssignment = l'.isAssignment := by have := congrArg TLine.isAssignment e; exact this
  have e3 : l.label = l'.label := by have := congrArg TLine.label e; exact this
  refine ⟨l0', l', ls', rfl, e1 ▸ h1, e2 ▸ h2, e3 ▸ h3, ?_⟩
  exact am.forall (P := fun x => x.isLabel = false ∧ x.hasOpcode = false ∧ x.isData = false) (fun _ => .rfl) h4

theorem LabelHere.snoc {a : List TLine} {x : Str} (hx : LabelHere a x) {l : TLine}
    (hl : l.isLabel = false ∧ l.hasOpcode = false ∧ l.isData = false) : LabelHere (a ++ [l]) x := by
  obtain ⟨l0, l1, ls, rfl, h1, h2, h3, h4⟩ := hx
  refine ⟨l0, l1, ls ++ [l], by simp, h1, h2, h3, ?_⟩
  intro y hy
  rcases List.mem_append.1 hy with hy | hy
  · exact h4 y hy
  · rw [List.mem_singleton.1 hy]; exact hl

theorem AliasOf.grows {a b : List TLine} (h : Grows a b) {x y : Str} (hx : AliasOf a x y) : AliasOf b x y := by
  obtain ⟨m, t, am, rfl⟩ := h
  obtain ⟨l0, l, ls, rfl, h0, h1, h2, h3⟩ := hx
  obtain ⟨l0', d', rfl, am1, am2⟩ := amended_append am
  obtain ⟨l', ls', rfl, e, -⟩ := amended_cons am2
  have e1 : l.isLabel = l'.isLabel := by have := congrArg TLine.isLabel e; exact this
  have e2 : l.isAssignment = l'.isAssignment := by have := congrArg TLine.isAssignment e; exact this
  have e3 : l.label = l'.label := by have := congrArg TLine.label e; exact this
  exact ⟨l0', l', ls' ++ t, by simp, h0.amended am1, e1 ▸ h1, e2 ▸ h2, e3 ▸ h3⟩

/-! ### The invariant of reading -/

/-- What a line is like before label usage is determined. -/
structure Fresh (l : TLine) : Prop where
  flags : l.isUsed = false ∧ l.isUsedThroughAlias = false ∧ l.isUsedDataThroughAlias = false
  parent : l.isLabel = true → l.isInternalLabel = false → l.closestParentLabel = []

structure UsageInv (f : Filter) (done : List Str) (p : TParser) : Prop where
  carry : Blanks p.st.text
  tables : Tables (LabelOf p.lines) (CodeEvidence f done p.lines) (DataEvidence p.lines) (DeclaredBy f done globalDirectives) p
  fresh : ∀ l ∈ p.lines, Fresh l
  addr : p.st.previousLabelOnSameAddress.s = [] ∨ LabelHere p.lines p.st.previousLabelOnSameAddress.s
  alias : ∀ e ∈ p.usage.aliased, AliasOf p.lines e.1 e.2

theorem sec_addr (p : TParser) : p.sec.st.previousLabelOnSameAddress = p.st.previousLabelOnSameAddress ∧ p.sec.usage = p.usage ∧
    p.sec.st.inCustomAssembly = p.nested.st.inCustomAssembly := by
  obtain ⟨⟨_, _, _, _, _, _, _, _, e⟩, -, -⟩ := frame_sec p
  rw [e]; exact ⟨rfl, rfl, rfl⟩

theorem lab_addr (p : TParser) : p.lab.1.st.previousLabelOnSameAddress = p.st.previousLabelOnSameAddress ∧ p.lab.1.usage = p.usage ∧
    p.lab.1.st.inCustomAssembly = p.nested.st.inCustomAssembly := by
  have := sec_addr p
  unfold TParser.lab
  split
  · exact this
  · unfold TParser.handleLabelDefinition
    split <;> exact this

theorem lab_fresh (p : TParser) : (p.lab.2.isUsed = false ∧ p.lab.2.isUsedThroughAlias = false ∧ p.lab.2.isUsedDataThroughAlias = false) ∧
    (p.lab.2.isLabel = true → p.lab.2.isInternalLabel = false → p.lab.2.label = p.lab.1.st.previousParentLabel.s) ∧
    (p.lab.2.isLabel = false → p.lab.2.label = [] ∧ p.lab.2.isAssignment = false) := by
  unfold TParser.lab
  split
  · exact ⟨⟨rfl, rfl, rfl⟩, fun h => absurd h (by simp [TParser.newLine]), fun _ => ⟨rfl, rfl⟩⟩
  · unfold TParser.handleLabelDefinition
    split
    · refine ⟨⟨rfl, rfl, rfl⟩, fun _ h => ?_, fun h => absurd h (by simp)⟩
      simp only at h
      simp [h]
    · exact ⟨⟨rfl, rfl, rfl⟩, fun h => absurd h (by simp), fun _ => ⟨rfl, rfl⟩⟩

theorem dirLine_lab (p : TParser) : ∃ d, p.dirLine = { p.lab.2 with isDirective := d } := by
  unfold TParser.dirLine
  split
  · exact ⟨_, rfl⟩
  · exact ⟨_, rfl⟩

theorem dir_aliased (p : TParser) (n : Nat) (t : Str) : (p.extractUsedLabelsFromDirective n t).usage.aliased = p.usage.aliased := by
  unfold TParser.extractUsedLabelsFromDirective
  split
  · rfl
  · split <;> rfl

theorem collect_aliased (L : Locale) (q : TParser) (ln : TLine) : (collect L q ln).1.usage.aliased = q.usage.aliased := by
  cases ln
  unfold collect TParser.extractUsedLabelsFromOpcodeLine TParser.extractUsedLabelsFromDataLine
  rename_i lb _ _ _ _ _ _ dt _ oc _ _
  cases lb <;> cases oc <;> cases dt <;> rfl

/-- Labels at the same address after the last steps for a line. -/
theorem finish_alias {L : Locale} {q : TParser} {ln : TLine} (hs : ∀ x ∈ q.st.previousLabelOnSameAddress.s, True)
    (addr : q.st.previousLabelOnSameAddress.s = [] ∨ LabelHere q.lines q.st.previousLabelOnSameAddress.s)
    (alias : ∀ e ∈ q.usage.aliased, AliasOf q.lines e.1 e.2) :
    ((q.eolFinish L ln).st.previousLabelOnSameAddress.s = [] ∨
      LabelHere (q.eolFinish L ln).lines (q.eolFinish L ln).st.previousLabelOnSameAddress.s) ∧
    ∀ e ∈ (q.eolFinish L ln).usage.aliased, AliasOf (q.eolFinish L ln).lines e.1 e.2 := by
  have e : q.eolFinish L ln =
    (let r := collect L q { ln with isInlineAsm := decide (q.st.inCustomAssembly > 0),
                                    hasOpcode := hasOpcode ln.text q.st.inNvccCode, labels := [] }
     let p := r.1
     let ln := { r.2 with
        closestParentLabel :=
          if r.2.isAssignment || r.2.label == p.st.previousParentLabel.s then [] else p.st.previousParentLabel.s
        source := p.st.currentSourceRef
        sect := p.st.currentSection }
     let p := p.handleLabelAliasing ln
     { p with lines := p.lines ++ [ln], stored := p.st.previousParentLabel.own :: p.stored }.clear) := rfl
  have h1 := collect_aliased L q { ln with isInlineAsm := decide (q.st.inCustomAssembly > 0),
                                           hasOpcode := hasOpcode ln.text q.st.inNvccCode, labels := [] }
  obtain ⟨us, sd, h2⟩ := collect_frame L q { ln with isInlineAsm := decide (q.st.inCustomAssembly > 0),
                                                     hasOpcode := hasOpcode ln.text q.st.inNvccCode, labels := [] }
  rw [e]
  generalize collect L q { ln with isInlineAsm := decide (q.st.inCustomAssembly > 0),
                                   hasOpcode := hasOpcode ln.text q.st.inNvccCode, labels := [] } = r at h1 h2 ⊢
  obtain ⟨q2, ln2⟩ := r
  simp only at h1 h2 ⊢
  have h3 : q2.lines = q.lines := by rw [h2]
  have h4 : q2.st = q.st := by rw [h2]
  rw [← h1, ← h3] at alias
  rw [← h3, ← h4] at addr
  clear h1 h2 h3 h4 e hs
  generalize hln : ({ ln2 with
      closestParentLabel :=
        if ln2.isAssignment || ln2.label == q2.st.previousParentLabel.s then [] else q2.st.previousParentLabel.s
      source := q2.st.currentSourceRef
      sect := q2.st.currentSection } : TLine) = l3
  clear hln ln ln2 q us sd
  have grow : ∀ e ∈ q2.usage.aliased, AliasOf (q2.lines ++ [l3]) e.1 e.2 :=
    fun e he => (alias e he).grows ⟨q2.lines, [l3], .refl _, rfl⟩
  unfold TParser.handleLabelAliasing
  by_cases hlab : l3.isLabel = true
  · by_cases has : l3.isAssignment = true
    · by_cases hp : q2.st.previousLabelOnSameAddress.s = []
      · simp only [hp, hlab, has, List.isEmpty_nil, Bool.not_true, Bool.and_false, Bool.false_eq_true, ↓reduceIte]
        exact ⟨.inl hp, grow⟩
      · have hp' : (!q2.st.previousLabelOnSameAddress.s.isEmpty) = true := by simpa using hp
        simp only [hp', hlab, has, Bool.not_true, Bool.and_false, Bool.false_eq_true, ↓reduceIte]
        exact ⟨.inl rfl, grow⟩
    · have has : l3.isAssignment = false := by simpa using has
      have here : LabelHere (q2.lines ++ [l3]) l3.label := ⟨q2.lines, l3, [], rfl, hlab, has, rfl, by simp⟩
      by_cases hp : q2.st.previousLabelOnSameAddress.s = []
      · simp only [hp, hlab, has, List.isEmpty_nil, Bool.not_true, Bool.not_false, Bool.and_true, Bool.false_eq_true, ↓reduceIte]
        exact ⟨.inr here, grow⟩
      · have hp' : (!q2.st.previousLabelOnSameAddress.s.isEmpty) = true := by simpa using hp
        simp only [hp', hlab, has, Bool.not_false, Bool.and_true, ↓reduceIte]
        refine ⟨.inr here, ?_⟩
        refine assocSet_forall (P := fun e => AliasOf (q2.lines ++ [l3]) e.1 e.2) grow ?_
        exact ⟨q2.lines, l3, [], rfl, addr.resolve_left hp, hlab, has, rfl⟩
  · have hlab : l3.isLabel = false := by simpa using hlab
    by_cases hp : q2.st.previousLabelOnSameAddress.s = []
    · simp only [hp, hlab, List.isEmpty_nil, Bool.not_true, Bool.false_and, Bool.false_eq_true, ↓reduceIte]
      exact ⟨.inl hp, grow⟩
    · have hp' : (!q2.st.previousLabelOnSameAddress.s.isEmpty) = true := by simpa using hp
      simp only [hp', hlab, Bool.false_and, Bool.false_eq_true, ↓reduceIte]
      split
      · split
        · exact ⟨.inl rfl, grow⟩
        · rename_i ho
          rw [Bool.or_eq_true, not_or] at ho
          refine ⟨.inr ((addr.resolve_left hp).snoc ⟨hlab, by simpa using ho.1, by simpa using ho.2⟩), grow⟩
      · exact ⟨.inl rfl, grow⟩

theorem usage_eol (L : Locale) {f : Filter} {done : List Str} {p : TParser} {raw : Str} (hf : p.filter = f) (hb : Basic p)
    {ws : Str} (hw : Blanks ws) (ht : p.st.text = ws ++ raw)
    (tables : Tables (LabelOf p.lines) (CodeEvidence f done p.lines) (DataEvidence p.lines) (DeclaredBy f done globalDirectives) p)
    (fresh : ∀ l ∈ p.lines, Fresh l)
    (addr : p.st.previousLabelOnSameAddress.s = [] ∨ LabelHere p.lines p.st.previousLabelOnSameAddress.s)
    (alias : ∀ e ∈ p.usage.aliased, AliasOf p.lines e.1 e.2) (carry : Blanks (p.eol L).st.text) :
    UsageInv f (done ++ [raw]) (p.eol L) := by
  -- it suffices to prove the other four parts
  suffices h : Tables (LabelOf (p.eol L).lines) (CodeEvidence f (done ++ [raw]) (p.eol L).lines) (DataEvidence (p.eol L).lines)
      (DeclaredBy f (done ++ [raw]) globalDirectives) (p.eol L) ∧ (∀ l ∈ (p.eol L).lines, Fresh l) ∧
      ((p.eol L).st.previousLabelOnSameAddress.s = [] ∨ LabelHere (p.eol L).lines (p.eol L).st.previousLabelOnSameAddress.s) ∧
      (∀ e ∈ (p.eol L).usage.aliased, AliasOf (p.eol L).lines e.1 e.2) from ⟨carry, h.1, h.2.1, h.2.2.1, h.2.2.2⟩
  have hd : ∀ x ∈ done, x ∈ done ++ [raw] := fun x hx => List.mem_append_left _ hx
  have grow : ∀ {ls q}, Tables (LabelOf p.lines) (CodeEvidence f done p.lines) (DataEvidence p.lines) (DeclaredBy f done globalDirectives) q →
      Grows p.lines ls →
      Tables (LabelOf ls) (CodeEvidence f (done ++ [raw]) ls) (DataEvidence ls) (DeclaredBy f (done ++ [raw]) globalDirectives) q :=
    fun h hg => h.mono (fun _ => .grows hg) (fun _ _ => .grows hd hg) (fun _ _ => .grows hg) (fun _ => .mono hd)
  have freshA : ∀ {ls}, Amended p.lines ls → ∀ l ∈ ls, Fresh l := by
    intro ls am
    refine am.forall (P := Fresh) (fun l => ?_) fresh
    exact ⟨fun h => ⟨h.flags, h.parent⟩, fun h => ⟨h.flags, h.parent⟩⟩
  have shown : ∃ i, Shown f p.newLine.text i raw := by
    obtain ⟨sp, t', h1, h2, h3, h4, -⟩ := lineText_shown p.filter p.nested.st.inCustomAssembly p.st.text
    refine ⟨decide (p.nested.st.inCustomAssembly > 0), ws, sp, t', hw, by rw [← ht]; exact h1, h2, h3.imp_right fun h => decide_eq_true h, ?_⟩
    rw [← hf]; exact h4
  have sym : ∀ w, (getWeakDefinedLabel p.newLine.text = some w → DeclaredBy f (done ++ [raw]) symbolDirectives w) ∧
      (getGlobalDefinedLabel p.newLine.text = some w → DeclaredBy f (done ++ [raw]) symbolDirectives w ∧
        DeclaredBy f (done ++ [raw]) globalDirectives w) := by
    obtain ⟨i, shown⟩ := shown
    have wk : ∀ {ks t a}, DeclaresSymbol ks t a → (∀ k ∈ ks, k ∈ symbolDirectives) → DeclaresSymbol symbolDirectives t a := by
      rintro ks t a ⟨bs, kw, bs', r, h1, h2, h3⟩ hk
      exact ⟨bs, kw, bs', r, h1, hk kw h2, h3⟩
    refine fun w => ⟨fun h => ?_, fun h => ?_⟩
    · refine ⟨raw, by simp, _, _, shown, ?_⟩
      rcases (getWeak_iff _ _).1 h with h | ⟨h, -⟩
      · exact wk h (by intro k hk; rw [List.mem_singleton.1 hk]; simp [symbolDirectives])
      · exact wk h (by intro k hk; rw [List.mem_singleton.1 hk]; simp [symbolDirectives])
    · have h := (getGlobal_iff _ _).1 h
      exact ⟨⟨raw, by simp, _, _, shown, wk h (by intro k hk; exact List.mem_append_right _ hk)⟩, ⟨raw, by simp, _, _, shown, h⟩⟩
  have am : Amended p.lines p.lab.1.lines := by rw [lab_lines]; exact (frame_sec p).lines
  have am0 : Amended p.lines p.sec.lines := (frame_sec p).lines
  obtain ⟨la1, la2, -⟩ := lab_addr p
  obtain ⟨sa1, sa2, -⟩ := sec_addr p
  have addrL : ∀ {ls}, Amended p.lines ls → (p.st.previousLabelOnSameAddress.s = [] ∨ LabelHere ls p.st.previousLabelOnSameAddress.s) :=
    fun am => addr.imp_right (·.amended am)
  have aliasL : ∀ {ls}, Grows p.lines ls → ∀ e ∈ p.usage.aliased, AliasOf ls e.1 e.2 := fun am e he => (alias e he).grows am
  obtain ⟨lf1, lf2, lf3⟩ := lab_fresh p
  refine eol_elim L (P := fun q => Tables (LabelOf q.lines) (CodeEvidence f (done ++ [raw]) q.lines) (DataEvidence q.lines)
      (DeclaredBy f (done ++ [raw]) globalDirectives) q ∧ (∀ l ∈ q.lines, Fresh l) ∧
      (q.st.previousLabelOnSameAddress.s = [] ∨ LabelHere q.lines q.st.previousLabelOnSameAddress.s) ∧
      (∀ e ∈ q.usage.aliased, AliasOf q.lines e.1 e.2)) p hb ?_ ?_ ?_ ?_ ?_ ?_ ?_
  · intros
    have h := grow tables (.amended (.refl _))
    exact ⟨⟨h.prev, h.parent, h.addr, h.code, h.data, h.user, h.alias, h.weak, h.keysU, h.keysD⟩, fresh, addr, alias⟩
  · intros
    unfold TParser.maybeAddBlank
    have h := grow tables (.amended (.refl _))
    split
    · exact ⟨⟨h.prev, h.parent, h.addr, h.code, h.data, h.user, h.alias, h.weak, h.keysU, h.keysD⟩, fresh, addr, alias⟩
    · split
      · exact ⟨⟨h.prev, h.parent, h.addr, h.code, h.data, h.user, h.alias, h.weak, h.keysU, h.keysD⟩, fresh, addr, alias⟩
      · have g : Grows p.lines (p.lines ++ [{ id := p.nextId + 1 }]) := ⟨p.lines, _, .refl _, rfl⟩
        have h := grow tables g
        refine ⟨⟨h.prev, h.parent, h.addr, h.code, h.data, h.user, h.alias, h.weak, h.keysU, h.keysD⟩, ?_, ?_, aliasL g⟩
        · intro l hl
          rcases List.mem_append.1 hl with hl | hl
          · exact fresh l hl
          · rw [List.mem_singleton.1 hl]
            exact ⟨⟨rfl, rfl, rfl⟩, fun h => absurd h (by simp)⟩
        · exact addr.imp_right (·.snoc ⟨rfl, rfl, rfl⟩)
  · intros
    have am1 : Amended p.lines p.pre.lines := (frame_pre p).lines
    have h := grow (tables_pre tables) (.amended am1)
    obtain ⟨⟨_, _, _, _, _, _, _, _, e⟩, -, -⟩ := frame_pre p
    refine ⟨⟨h.prev, h.parent, h.addr, h.code, h.data, h.user, h.alias, h.weak, h.keysU, h.keysD⟩, freshA am1, ?_, ?_⟩
    · have e1 : p.pre.st.previousLabelOnSameAddress = p.st.previousLabelOnSameAddress := by rw [e]; rfl
      show p.pre.st.previousLabelOnSameAddress.s = [] ∨ LabelHere p.pre.lines p.pre.st.previousLabelOnSameAddress.s
      rw [e1]; exact addrL am1
    · have e1 : p.pre.usage = p.usage := by rw [e]; rfl
      show ∀ e ∈ p.pre.usage.aliased, AliasOf p.pre.lines e.1 e.2
      rw [e1]; exact aliasL (.amended am1)
  · intros
    have h := grow (tables_sec tables (.inl rfl)) (.amended am0)
    refine ⟨⟨h.prev, h.parent, h.addr, h.code, h.data, h.user, h.alias, h.weak, h.keysU, h.keysD⟩, freshA am0, ?_, ?_⟩
    · show p.sec.st.previousLabelOnSameAddress.s = [] ∨ LabelHere p.sec.lines p.sec.st.previousLabelOnSameAddress.s
      rw [sa1]; exact addrL am0
    · show ∀ e ∈ p.sec.usage.aliased, AliasOf p.sec.lines e.1 e.2
      rw [sa2]; exact aliasL (.amended am0)
  · intros
    have h := grow (tables_sec tables (.inl rfl)) (.amended am0)
    refine ⟨⟨h.prev, h.parent, h.addr, h.code, h.data, h.user, h.alias, h.weak, h.keysU, h.keysD⟩, freshA am0, ?_, ?_⟩
    · show p.sec.st.previousLabelOnSameAddress.s = [] ∨ LabelHere p.sec.lines p.sec.st.previousLabelOnSameAddress.s
      rw [sa1]; exact addrL am0
    · show ∀ e ∈ p.sec.usage.aliased, AliasOf p.sec.lines e.1 e.2
      rw [sa2]; exact aliasL (.amended am0)
  · intro _ _ _ _ _ hlab _ _ _ _ _
    have h1 := grow tables (.amended am)
    have h2 := tables_lab h1 (.inl rfl) (fun h => by rw [hlab] at h; exact absurd h (by simp))
    have h3 := tables_dir h2 p.newLine.id p.newLine.text (fun w hw => .inr ⟨h2.prev, (sym w).1 hw⟩)
      (fun g hg => ⟨.inr ⟨h2.prev, ((sym g).2 hg).1⟩, ((sym g).2 hg).2⟩)
    have ea := dir_aliased p.lab.1 p.newLine.id p.newLine.text
    obtain ⟨us, sd, e⟩ := extractDirective_frame p.lab.1 p.newLine.id p.newLine.text
    rw [e] at h3 ea ⊢
    refine ⟨⟨h3.prev, h3.parent, h3.addr, h3.code, h3.data, h3.user, h3.alias, h3.weak, h3.keysU, h3.keysD⟩, freshA am, ?_, ?_⟩
    · show p.lab.1.st.previousLabelOnSameAddress.s = [] ∨ LabelHere p.lab.1.lines p.lab.1.st.previousLabelOnSameAddress.s
      rw [la1]; exact addrL am
    · show ∀ e ∈ us.aliased, AliasOf p.lab.1.lines e.1 e.2
      rw [show us.aliased = p.lab.1.usage.aliased from ea, la2]; exact aliasL (.amended am)
  · intro _ _ _ _ _ q ln hq
    -- the state passed to the last steps
    have hq : ∃ (q0 : TParser), (q = q0 ∨ q = p.lab.1.extractUsedLabelsFromDirective p.newLine.id p.newLine.text ∧ q0 = p.lab.1) ∧
        q0.lines = p.lab.1.lines ∧ q0.usage = p.lab.1.usage ∧
        q0.st.previousLabel = p.lab.1.st.previousLabel ∧ q0.st.previousParentLabel = p.lab.1.st.previousParentLabel ∧
        q0.st.previousLabelOnSameAddress = p.lab.1.st.previousLabelOnSameAddress ∧ ∃ d, ln = { p.lab.2 with isDirective := d } := by
      rcases hq with ⟨-, rfl, rfl⟩ | ⟨-, -, -, rfl, -, -, -, rfl⟩ | ⟨-, -, -, rfl, -, rfl⟩ | ⟨-, -, rfl, rfl⟩
      · refine ⟨_, .inl rfl, ?_⟩
        split
        · exact ⟨rfl, rfl, rfl, rfl, rfl, _, rfl⟩
        · exact ⟨rfl, rfl, rfl, rfl, rfl, _, rfl⟩
      · exact ⟨_, .inr ⟨rfl, rfl⟩, rfl, rfl, rfl, rfl, rfl, dirLine_lab p⟩
      · exact ⟨_, .inl rfl, rfl, rfl, rfl, rfl, rfl, dirLine_lab p⟩
      · exact ⟨_, .inl rfl, rfl, rfl, rfl, rfl, rfl, _, rfl⟩
    obtain ⟨q0, hq, e1, e2, e3, e4, e5, d, eln⟩ := hq
    have hparent : q.st.previousParentLabel = p.lab.1.st.previousParentLabel := by
      rcases hq with rfl | ⟨rfl, rfl⟩
      · exact e4
      · obtain ⟨us, sd, e⟩ := extractDirective_frame p.lab.1 p.newLine.id p.newLine.text
        rw [e]
    have hlines : q.lines = p.lab.1.lines := by
      rcases hq with rfl | ⟨rfl, rfl⟩
      · exact e1
      · obtain ⟨us, sd, e⟩ := extractDirective_frame p.lab.1 p.newLine.id p.newLine.text
        rw [e]
    have hal : q.usage.aliased = p.usage.aliased := by
      rcases hq with rfl | ⟨rfl, rfl⟩
      · rw [e2, la2]
      · rw [dir_aliased, la2]
    have had : q.st.previousLabelOnSameAddress = p.st.previousLabelOnSameAddress := by
      rcases hq with rfl | ⟨rfl, rfl⟩
      · rw [e5, la1]
      · obtain ⟨us, sd, e⟩ := extractDirective_frame p.lab.1 p.newLine.id p.newLine.text
        rw [e]; exact la1
    have hfin : (q.eolFinish L ln).lines = q.lines ++ [finLine L q ln] := by
      obtain ⟨us, sd, pl, e⟩ := eolFinish_frame L q ln
      rw [e]
    have g : Grows p.lines (q.eolFinish L ln).lines := ⟨p.lab.1.lines, [finLine L q ln], am, by rw [hfin, hlines]⟩
    have hmem : finLine L q ln ∈ (q.eolFinish L ln).lines := by rw [hfin]; simp
    have ellab : ln.isLabel = p.lab.2.isLabel := by rw [eln]
    have ellabel : ln.label = p.lab.2.label := by rw [eln]
    have elas : ln.isAssignment = p.lab.2.isAssignment := by rw [eln]
    have elint : ln.isInternalLabel = p.lab.2.isInternalLabel := by rw [eln]
    have hlabel : ln.isLabel = true → LabelOf (q.eolFinish L ln).lines ln.label := fun h => .inr ⟨_, hmem, h, rfl⟩
    have h1 := grow tables g
    have h2 := tables_lab h1 (.inl rfl) (by rw [← ellab, ← ellabel]; exact hlabel)
    have h3 : Tables (LabelOf (q.eolFinish L ln).lines) (CodeEvidence f (done ++ [raw]) (q.eolFinish L ln).lines)
        (DataEvidence (q.eolFinish L ln).lines) (DeclaredBy f (done ++ [raw]) globalDirectives) q := by
      rcases hq with rfl | ⟨rfl, rfl⟩
      · refine ⟨by rw [e3]; exact h2.prev, by rw [e4]; exact h2.parent, by rw [e5]; exact h2.addr, ?_, ?_, ?_, ?_, ?_, ?_, ?_⟩
        · rw [e2]; exact h2.code
        · rw [e2]; exact h2.data
        · rw [e2]; exact h2.user
        · rw [e2]; exact h2.alias
        · rw [e2]; exact h2.weak
        · rw [e2]; exact h2.keysU
        · rw [e2]; exact h2.keysD
      · exact tables_dir h2 p.newLine.id p.newLine.text (fun w hw => .inr ⟨h2.prev, (sym w).1 hw⟩)
          (fun g hg => ⟨.inr ⟨h2.prev, ((sym g).2 hg).1⟩, ((sym g).2 hg).2⟩)
    have hcp : ln.isLabel = false → (finLine L q ln).closestParentLabel = q.st.previousParentLabel.s := by
      intro h
      obtain ⟨h4, h5⟩ := lf3 (by rw [← ellab]; exact h)
      show (if ln.isAssignment || ln.label == q.st.previousParentLabel.s then [] else q.st.previousParentLabel.s) = _
      rw [elas, ellabel, h4, h5]
      cases hp : q.st.previousParentLabel.s with
      | nil => rfl
      | cons c cs => rfl
    refine ⟨tables_finish h3 (.inl rfl) hlabel ?_ ?_, ?_, ?_⟩
    · intro h ho r hr
      refine .inl ⟨_, hmem, h, ho, hcp h, r, ?_, rfl⟩
      show r ∈ (if !ln.isLabel && (hasOpcode ln.text q.st.inNvccCode || ln.isData) then getUsedLabelsInLine L ln.text else [])
      rw [h, ho]; exact hr
    · intro h hdt r hr
      have hev : ∃ l ∈ (q.eolFinish L ln).lines, l.isLabel = false ∧ l.isData = true ∧ ∃ r' ∈ l.labels, r'.name = r.name := by
        refine ⟨_, hmem, h, hdt, r, ?_, rfl⟩
        show r ∈ (if !ln.isLabel && (hasOpcode ln.text q.st.inNvccCode || ln.isData) then getUsedLabelsInLine L ln.text else [])
        rw [h, hdt, Bool.or_true]; exact hr
      exact ⟨⟨h3.prev, hev⟩, ⟨h3.parent, hev⟩⟩
    · rw [hfin, hlines]
      intro l hl
      rcases List.mem_append.1 hl with hl | hl
      · exact freshA am l hl
      · rw [List.mem_singleton.1 hl]
        refine ⟨?_, fun h1 h2 => ?_⟩
        · show ln.isUsed = false ∧ ln.isUsedThroughAlias = false ∧ ln.isUsedDataThroughAlias = false
          rw [eln]; exact lf1
        · have h4 := lf2 (by rw [← ellab]; exact h1) (by rw [← elint]; exact h2)
          show (if ln.isAssignment || ln.label == q.st.previousParentLabel.s then [] else q.st.previousParentLabel.s) = _
          rw [ellabel, h4, hparent]
          simp
    · refine finish_alias (fun _ _ => trivial) ?_ ?_
      · rw [had, hlines]; exact addrL am
      · rw [hal, hlines]; exact aliasL (.amended am)

end AsmParser
