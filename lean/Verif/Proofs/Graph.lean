/-
Helper lemmas: the labels of an input and the references between them.
-/
import Verif.Proofs.GraphLines
import Verif.Proofs.SourceRead
import Verif.Proofs.UsageTables

namespace AsmParser
open Re Regexes

attribute [local irreducible] Re.search Re.fullMatch

set_option linter.unusedSimpArgs false

/-! ### Places in the input -/

theorem snoc_inj {ts ts' : List Seen} {t t' : Seen} (h : ts ++ [t] = ts' ++ [t']) : ts = ts' ∧ t = t' := by
  obtain ⟨h1, h2⟩ := List.append_inj' h rfl
  exact ⟨h1, by simpa using h2⟩

theorem labelAt_snoc {ts : List Seen} {t : Seen} {l : Str} : LabelAt (ts ++ [t]) l ↔
    t.Defines l ∨ (∀ l, ¬ t.Defines l) ∧ (t.Clears ∧ l = [] ∨ ¬ t.Clears ∧ LabelAt ts l) := by
  constructor
  · intro h
    generalize hx : ts ++ [t] = x at h
    cases h with
    | start => simp at hx
    | label h => obtain ⟨rfl, rfl⟩ := snoc_inj hx; exact .inl h
    | clear h h1 => obtain ⟨rfl, rfl⟩ := snoc_inj hx; exact .inr ⟨h, .inl ⟨h1, rfl⟩⟩
    | keep h h1 h2 => obtain ⟨rfl, rfl⟩ := snoc_inj hx; exact .inr ⟨h, .inr ⟨h1, h2⟩⟩
  · rintro (h | ⟨h, ⟨h1, rfl⟩ | ⟨h1, h2⟩⟩)
    · exact .label h
    · exact .clear h h1
    · exact .keep h h1 h2

theorem functionAt_snoc {ts : List Seen} {t : Seen} {l : Str} : FunctionAt (ts ++ [t]) l ↔
    t.Defines l ∧ ¬ Internal l ∨ (∀ l, t.Defines l → Internal l) ∧ FunctionAt ts l := by
  constructor
  · intro h
    generalize hx : ts ++ [t] = x at h
    cases h with
    | start => simp at hx
    | label h h1 => obtain ⟨rfl, rfl⟩ := snoc_inj hx; exact .inl ⟨h, h1⟩
    | keep h h1 => obtain ⟨rfl, rfl⟩ := snoc_inj hx; exact .inr ⟨h, h1⟩
  · rintro (⟨h, h1⟩ | ⟨h, h1⟩)
    · exact .label h h1
    · exact .keep h h1

theorem addressAt_snoc {ts : List Seen} {t : Seen} {l : Str} : AddressAt (ts ++ [t]) l ↔
    t.Defines l ∧ Places t.text l ∨ (∃ x, t.Defines x ∧ Assigns t.text x) ∧ l = [] ∨ (t.Instr ∨ t.Data) ∧ l = [] ∨
      (∀ l, ¬ t.Defines l) ∧ ¬ t.Instr ∧ ¬ t.Data ∧ AddressAt ts l := by
  constructor
  · intro h
    generalize hx : ts ++ [t] = x at h
    cases h with
    | start => simp at hx
    | place h h1 => obtain ⟨rfl, rfl⟩ := snoc_inj hx; exact .inl ⟨h, h1⟩
    | assign h h1 => obtain ⟨rfl, rfl⟩ := snoc_inj hx; exact .inr (.inl ⟨⟨_, h, h1⟩, rfl⟩)
    | next h => obtain ⟨rfl, rfl⟩ := snoc_inj hx; exact .inr (.inr (.inl ⟨h, rfl⟩))
    | keep h h1 h2 h3 => obtain ⟨rfl, rfl⟩ := snoc_inj hx; exact .inr (.inr (.inr ⟨h, h1, h2, h3⟩))
  · rintro (⟨h, h1⟩ | ⟨⟨x, h, h1⟩, rfl⟩ | ⟨h, rfl⟩ | ⟨h, h1, h2, h3⟩)
    · exact .place h h1
    · exact .assign h h1
    · exact .next h
    · exact .keep h h1 h2 h3

theorem nil_append_snoc {ts : List Seen} {t : Seen} (h : [] = ts ++ [t]) : False := by simp at h

theorem LabelAt.nil {a : Str} (h : LabelAt [] a) : a = [] := by
  generalize hx : ([] : List Seen) = x at h
  cases h <;> first | rfl | exact (nil_append_snoc hx).elim

theorem LabelAt.unique {ts : List Seen} {a b : Str} : LabelAt ts a → LabelAt ts b → a = b := by
  refine snoc_induction (P := fun ts => LabelAt ts a → LabelAt ts b → a = b) ?_ ?_ ts
  · intro h h'
    rw [h.nil, h'.nil]
  · intro ts t ih h h'
    rcases labelAt_snoc.1 h with g | ⟨g, ⟨g1, rfl⟩ | ⟨g1, g2⟩⟩ <;> rcases labelAt_snoc.1 h' with k | ⟨k, ⟨k1, rfl⟩ | ⟨k1, k2⟩⟩
    · exact g.unique k
    · exact (k _ g).elim
    · exact (k _ g).elim
    · exact (g _ k).elim
    · rfl
    · exact (k1 g1).elim
    · exact (g _ k).elim
    · exact (g1 k1).elim
    · exact ih g2 k2

theorem FunctionAt.nil {a : Str} (h : FunctionAt [] a) : a = [] := by
  generalize hx : ([] : List Seen) = x at h
  cases h <;> first | rfl | exact (nil_append_snoc hx).elim

theorem FunctionAt.unique {ts : List Seen} {a b : Str} : FunctionAt ts a → FunctionAt ts b → a = b := by
  refine snoc_induction (P := fun ts => FunctionAt ts a → FunctionAt ts b → a = b) ?_ ?_ ts
  · intro h h'
    rw [h.nil, h'.nil]
  · intro ts t ih h h'
    rcases functionAt_snoc.1 h with ⟨g, g1⟩ | ⟨g, g1⟩ <;> rcases functionAt_snoc.1 h' with ⟨k, k1⟩ | ⟨k, k1⟩
    · exact g.unique k
    · exact (g1 (k _ g)).elim
    · exact (k1 (g _ k)).elim
    · exact ih g1 k1

theorem Seen.Instr.plain {t : Seen} (h : t.Instr ∨ t.Data) : ∀ l, ¬ t.Defines l := by
  rcases h with h | h <;> exact h.1.2

theorem AddressAt.nil {a : Str} (h : AddressAt [] a) : a = [] := by
  generalize hx : ([] : List Seen) = x at h
  cases h <;> first | rfl | exact (nil_append_snoc hx).elim

theorem AddressAt.unique {ts : List Seen} {a b : Str} : AddressAt ts a → AddressAt ts b → a = b := by
  refine snoc_induction (P := fun ts => AddressAt ts a → AddressAt ts b → a = b) ?_ ?_ ts
  · intro h h'
    rw [h.nil, h'.nil]
  · intro ts t ih h h'
    rcases addressAt_snoc.1 h with ⟨g, g1⟩ | ⟨⟨x, g, g1⟩, rfl⟩ | ⟨g, rfl⟩ | ⟨g, g1, g2, g3⟩ <;>
      rcases addressAt_snoc.1 h' with ⟨k, k1⟩ | ⟨⟨y, k, k1⟩, rfl⟩ | ⟨k, rfl⟩ | ⟨k, k1, k2, k3⟩
    · exact g.unique k
    · exact (places_not_assigns g1 k1).elim
    · exact (Seen.Instr.plain k _ g).elim
    · exact (k _ g).elim
    · exact (places_not_assigns k1 g1).elim
    · rfl
    · rfl
    · exact (k _ g).elim
    · exact (Seen.Instr.plain g _ k).elim
    · rfl
    · rfl
    · exact (g.elim k1 k2).elim
    · exact (g _ k).elim
    · exact (g _ k).elim
    · exact (k.elim g1 g2).elim
    · exact ih g3 k3

theorem somewhere_snoc {ts : List Seen} {t : Seen} {P : List Seen → Seen → Prop} : Somewhere (ts ++ [t]) P ↔ Somewhere ts P ∨ P ts t := by
  constructor
  · rintro ⟨a, u, b, e, h⟩
    rcases List.eq_nil_or_concat b with rfl | ⟨b', x, rfl⟩
    · obtain ⟨rfl, rfl⟩ := snoc_inj e
      exact .inr h
    · rw [List.concat_eq_append, ← List.cons_append, ← List.append_assoc] at e
      obtain ⟨rfl, rfl⟩ := snoc_inj e
      exact .inl ⟨a, u, b', rfl, h⟩
  · rintro (⟨a, u, b, rfl, h⟩ | h)
    · exact ⟨a, u, b ++ [t], by simp, h⟩
    · exact ⟨ts, t, [], rfl, h⟩

theorem somewhere_nil {P : List Seen → Seen → Prop} : ¬ Somewhere [] P := by
  rintro ⟨a, u, b, e, -⟩
  simp at e

theorem sameAddress_snoc {ts : List Seen} {t : Seen} {b a x : Str} (hx : AddressAt ts x) : SameAddress (ts ++ [t]) b a ↔
    a ≠ [] ∧ t.Defines b ∧ Places t.text b ∧ a = x ∨ (t.Defines b → Places t.text b → x = []) ∧ SameAddress ts b a := by
  constructor
  · rintro ⟨h0, u, s, v, e, h1, h2, h3, h4⟩
    rcases List.eq_nil_or_concat v with rfl | ⟨v', y, rfl⟩
    · obtain ⟨rfl, rfl⟩ := snoc_inj e
      exact .inl ⟨h0, h1, h2, h3.unique hx⟩
    · rw [List.concat_eq_append, ← List.cons_append, ← List.append_assoc] at e
      obtain ⟨rfl, rfl⟩ := snoc_inj e
      refine .inr ⟨fun h5 h6 => hx.unique (h4 v' t [] (by simp) h5 h6), h0, u, s, v', rfl, h1, h2, h3, ?_⟩
      rintro p w y rfl h5 h6
      exact h4 p w (y ++ [t]) (by simp) h5 h6
  · rintro (⟨h0, h1, h2, rfl⟩ | ⟨h5, h0, u, s, v, rfl, h1, h2, h3, h4⟩)
    · exact ⟨h0, ts, t, [], rfl, h1, h2, hx, fun p w y e => by simp at e⟩
    · refine ⟨h0, u, s, v ++ [t], by simp, h1, h2, h3, ?_⟩
      intro p w y e h6 h7
      rcases List.eq_nil_or_concat y with rfl | ⟨y', z, rfl⟩
      · obtain ⟨rfl, rfl⟩ := snoc_inj e
        rw [h5 h6 h7] at hx
        exact hx
      · rw [List.concat_eq_append, ← List.cons_append, ← List.append_assoc] at e
        obtain ⟨rfl, rfl⟩ := snoc_inj e
        exact h4 p w y' rfl h6 h7

theorem sameAddress_nil {b a : Str} : ¬ SameAddress [] b a := by
  rintro ⟨-, u, s, v, e, -⟩
  simp at e

/-! ### What a line does to the tables -/

/-- The part of the state that has to do with labels. -/
structure GView where
  prev : Str
  parent : Str
  addr : Str
  usage : Usage
  defs : List (Str × Nat)

def TParser.graph (p : TParser) : GView :=
  ⟨p.st.previousLabel.s, p.st.previousParentLabel.s, p.st.previousLabelOnSameAddress.s, p.usage, p.labelsDefined⟩

def codeRefs (L : Locale) (text parent : Str) (m : List (Str × List Str)) : List (Str × List Str) :=
  (getUsedLabelsInLine L text).foldl (fun m r => if r.name ≠ parent then addRef r.name parent m else m) m

def dataRefs (L : Locale) (inside : Bool) (text prev parent : Str) (m : List (Str × List Str)) : List (Str × List Str) :=
  (getUsedLabelsInLine L text).foldl (fun m r => if inside then addRef r.name parent (addRef r.name prev m) else addRef r.name prev m) m

theorem finish_graph_label (L : Locale) (q : TParser) (ln : TLine) (h : ln.isLabel = true) : (q.eolFinish L ln).graph =
    { q.graph with
      addr := if ln.isAssignment then [] else ln.label
      usage := { q.usage with aliased :=
        if ln.isAssignment || q.graph.addr.isEmpty then q.usage.aliased else assocSet ln.label q.graph.addr q.usage.aliased } } := by
  unfold TParser.eolFinish
  simp only [h, Bool.not_true, Bool.false_and, Bool.false_eq_true, if_false]
  unfold TParser.handleLabelAliasing
  unfold TParser.graph TParser.clear
  cases ha : ln.isAssignment <;> cases hp : q.st.previousLabelOnSameAddress.s with
    | nil => simp [hp, h, ha]
    | cons c r => simp [hp, h, ha]

theorem finish_graph_line (L : Locale) (q : TParser) (ln : TLine) (h : ln.isLabel = false) (ha : ln.isAssignment = false) :
    (q.eolFinish L ln).graph =
    { q.graph with
      addr := if hasOpcode ln.text q.st.inNvccCode || ln.isData then [] else q.graph.addr
      usage := { q.usage with
        used := if hasOpcode ln.text q.st.inNvccCode then codeRefs L ln.text q.graph.parent q.usage.used else q.usage.used
        dataUsed := if ln.isData then dataRefs L q.st.currentSourceRef.insideProc ln.text q.graph.prev q.graph.parent q.usage.dataUsed
          else q.usage.dataUsed } } := by
  unfold TParser.eolFinish
  cases ho : hasOpcode ln.text q.st.inNvccCode <;> cases hd : ln.isData <;> cases hp : q.st.previousLabelOnSameAddress.s with
  | nil => simp [TParser.extractUsedLabelsFromOpcodeLine, TParser.extractUsedLabelsFromDataLine, TParser.handleLabelAliasing, TParser.graph, TParser.clear, codeRefs, dataRefs, hp, h, ha, hd, ho]
  | cons c r => simp [TParser.extractUsedLabelsFromOpcodeLine, TParser.extractUsedLabelsFromDataLine, TParser.handleLabelAliasing, TParser.graph, TParser.clear, codeRefs, dataRefs, hp, h, ha, hd, ho]

/-- Whether the program regards the current position as inside a function is whether it is by the index of a file. -/
def Inside (s : TSource) : Prop := s.insideProc = true ↔ s.fileIdx ≠ 0

theorem sources_prev {t : Seen} (p : TParser) (ln : TLine) (ht : t.text = ln.text) (hc : t.code = p.st.inNvccCode) (hi : Inside p.st.currentSourceRef) :
    Inside (p.handleSourceDirectives ln).1.st.currentSourceRef ∧
    (t.Clears → (p.handleSourceDirectives ln).1.st.previousLabel.s = []) ∧
    (¬ t.Clears → (p.handleSourceDirectives ln).1.st.previousLabel.s = p.st.previousLabel.s) := by
  unfold TParser.handleSourceDirectives
  have hend : (endBlock ln.text || (p.st.inNvccCode && ln.text.contains c! '}')) = true ↔ t.Ends := by
    rw [Bool.or_eq_true, endBlock_iff, Bool.and_eq_true, List.contains_iff_mem, ← ht, ← hc]; rfl
  have empty : Inside {} := by unfold Inside; simp
  split
  · rename_i h
    exact ⟨empty, fun _ => rfl, fun hn => (hn (.inl (hend.1 h))).elim⟩
  · rename_i h
    have he : ¬ t.Ends := fun h' => h (hend.2 h')
    clear h hend
    rw [← ht]
    -- a line with another word does not clear
    have other : ∀ {kw}, Kw t.text kw → KwWord kw → kw ≠ b! ".stabn" → ¬ t.Clears := by
      rintro kw hk hw hne (h | ⟨k, n, h, -⟩)
      · exact he h
      · exact kw_ne hk hw word_stabn hne h.kw
    have keep : ∀ {q : TParser}, ¬ t.Clears → q.st.previousLabel.s = p.st.previousLabel.s → Inside q.st.currentSourceRef →
        Inside q.st.currentSourceRef ∧ (t.Clears → q.st.previousLabel.s = []) ∧ (¬ t.Clears → q.st.previousLabel.s = p.st.previousLabel.s) :=
      fun h1 h2 h3 => ⟨h3, fun h => (h1 h).elim, fun _ => h2⟩
    unfold TParser.handleFiledef
    cases hf : getFileDef t.text with
    | some d =>
      obtain ⟨i, name⟩ := d
      exact keep (other (getFileDef_iff.1 hf).kw word_file (by decide)) rfl hi
    | none =>
      simp only [Option.map_none]
      unfold TParser.handleSource
      have rest : Inside (match p.handleStabs t.text with
            | some p => (p, true)
            | none => match p.handle6502 ln.id t.text with
              | some p => (p, true)
              | none => match p.handleD2 ln.id t.text with | some p => (p, true) | none => (p, false)).1.st.currentSourceRef ∧
          (t.Clears → (match p.handleStabs t.text with
            | some p => (p, true)
            | none => match p.handle6502 ln.id t.text with
              | some p => (p, true)
              | none => match p.handleD2 ln.id t.text with | some p => (p, true) | none => (p, false)).1.st.previousLabel.s = []) ∧
          (¬ t.Clears → (match p.handleStabs t.text with
            | some p => (p, true)
            | none => match p.handle6502 ln.id t.text with
              | some p => (p, true)
              | none => match p.handleD2 ln.id t.text with | some p => (p, true) | none => (p, false)).1.st.previousLabel.s = p.st.previousLabel.s) := by
        unfold TParser.handleStabs
        rcases getStabs_cases t.text with ⟨k, n, h, e⟩ | ⟨h, e⟩
        · rw [e]
          simp only [Option.map_some]
          have hu : ∀ k' n', StabDirective t.text k' n' → k' = k := fun k' n' h' => by
            have := getStabs_of h'
            rw [e] at this
            simp only [Option.some.injEq, Prod.mk.injEq] at this
            exact this.1.symm
          by_cases h68 : k = 68
          · subst h68
            refine keep ?_ rfl (by unfold Inside; simp)
            rintro (h' | ⟨k', n', h', hk⟩)
            · exact he h'
            · rw [hu _ _ h'] at hk
              exact absurd hk (by decide)
          · rw [if_neg h68]
            by_cases hk : k = 100 ∨ k = 132
            · rw [if_pos hk]
              exact ⟨empty, fun _ => rfl, fun hn => (hn (.inr ⟨k, n, h, hk⟩)).elim⟩
            · rw [if_neg hk]
              refine keep ?_ rfl hi
              rintro (h' | ⟨k', n', h', hk'⟩)
              · exact he h'
              · rw [hu _ _ h'] at hk'
                exact hk hk'
        · have hn : ¬ t.Clears := by
            rintro (h' | ⟨k', n', h', hk'⟩)
            · exact he h'
            · exact h _ _ h'
          rw [e]
          simp only [Option.map_none]
          unfold TParser.handle6502
          cases get6502DbgInfo t.text with
          | some d =>
            simp only [Option.map_some]
            split
            · exact keep hn rfl (by unfold Inside; simp)
            · exact keep hn rfl hi
          | none =>
            simp only [Option.map_none]
            unfold TParser.handleD2
            cases getD2LineInfo t.text with
            | some d => exact keep hn rfl (by unfold Inside TParser.amendPreviousLinesWith; simp)
            | none =>
              cases getD2FileInfo t.text with
              | some d => exact keep hn rfl hi
              | none => exact keep hn rfl hi
      rcases getSourceRef_cases t.text with ⟨i, n, c, hl, e⟩ | ⟨hl, e⟩
      · by_cases h0 : i = 0
        · rw [e]
          simp only [ne_eq, h0, not_true_eq_false, if_false]
          exact rest
        · rw [e]
          simp only [ne_eq, h0, not_false_eq_true, if_true]
          exact keep (other hl.kw word_loc (by decide)) rfl (by unfold Inside TParser.amendPreviousLinesWith; simp [h0])
      · rw [e]
        simp only [ne_eq, not_true_eq_false, if_false]
        exact rest

theorem pre_graph (p : TParser) : p.pre.graph = p.graph := by
  unfold TParser.pre
  split <;> rfl

theorem sec_graph (p : TParser) (hi : Inside p.st.currentSourceRef) : Inside p.sec.st.currentSourceRef ∧
    (p.seen.Clears → p.sec.graph = { p.graph with prev := [] }) ∧ (¬ p.seen.Clears → p.sec.graph = p.graph) := by
  obtain ⟨e1, e2⟩ := pre_src p
  have e3 : p.pre.st.currentSourceRef = p.st.currentSourceRef := congrArg (·.1) e1
  obtain ⟨h1, h2, h3⟩ := sources_prev (t := p.seen) p.pre p.newLine rfl e2.symm (by rw [e3]; exact hi)
  have e4 : p.pre.st.previousLabel.s = p.st.previousLabel.s := congrArg (·.prev) (pre_graph p)
  have e5 : p.sec.st.currentSourceRef = (p.pre.handleSourceDirectives p.newLine).1.st.currentSourceRef ∧
      p.sec.st.previousLabel = (p.pre.handleSourceDirectives p.newLine).1.st.previousLabel := by
    unfold TParser.sec
    split
    · unfold TParser.handleSection
      split <;> exact ⟨rfl, rfl⟩
    · exact ⟨rfl, rfl⟩
  rw [← e5.1] at h1
  rw [← e5.2] at h2 h3
  rw [e4] at h3
  have e6 : p.sec.graph = { p.graph with prev := p.sec.st.previousLabel.s } := by
    obtain ⟨⟨_, _, _, _, _, _, _, _, e⟩, -, -⟩ := frame_sec p
    rw [e]; rfl
  refine ⟨h1, fun h => ?_, fun h => ?_⟩
  · rw [e6, h2 h]
  · rw [e6, h3 h]; rfl

/-- The label of the line. -/
def TParser.found (p : TParser) : Option (Str × Bool × Bool) := if p.handled then none else getLabelFromLine p.newLine.text

/-- What a directive declares. -/
def declUsage (text prev : Str) (u : Usage) : Usage :=
  match getWeakDefinedLabel text with
  | some w => { u with used := addRef w prev u.used }
  | none =>
    match getGlobalDefinedLabel text with
    | some g => { u with usercode := setInsert g u.usercode, used := addRef g prev u.used }
    | none => u

theorem dir_graph (p : TParser) (n : Nat) (t : Str) :
    (p.extractUsedLabelsFromDirective n t).graph = { p.graph with usage := declUsage t p.graph.prev p.usage } ∧
    (p.extractUsedLabelsFromDirective n t).st = p.st := by
  unfold TParser.extractUsedLabelsFromDirective declUsage
  cases getWeakDefinedLabel t with
  | some w => exact ⟨rfl, rfl⟩
  | none =>
    cases getGlobalDefinedLabel t with
    | some g => exact ⟨rfl, rfl⟩
    | none => exact ⟨rfl, rfl⟩

/-- Is the line a directive that may declare symbols? -/
def TParser.decl (p : TParser) : Bool :=
  !p.st.inNvccDef && !(!p.handled && isDataDefn p.newLine.text) && (p.handled || isDirective p.newLine.text) && !isInstOpcode p.newLine.text

theorem lab_graph_none (p : TParser) (h : p.found = none) : p.lab.1.graph = p.sec.graph ∧ p.lab.1.st.inNvccCode = p.st.inNvccCode ∧
    p.lab.1.st.inNvccDef = p.st.inNvccDef ∧ p.lab.2.isLabel = false ∧ p.lab.2.isAssignment = false := by
  have hs : p.sec'.nv = p.nv := sec_nv p
  have h1 : p.sec'.st.inNvccCode = p.st.inNvccCode := congrArg (·.1) hs
  have h2 : p.sec'.st.inNvccDef = p.st.inNvccDef := congrArg (·.2) hs
  unfold TParser.found at h
  unfold TParser.lab
  split
  · exact ⟨rfl, h1, h2, rfl, rfl⟩
  · rename_i hh
    rw [if_neg hh] at h
    unfold TParser.handleLabelDefinition
    rw [h]
    exact ⟨rfl, h1, h2, rfl, rfl⟩

theorem lab_graph_some (p : TParser) {l : Str} {a c : Bool} (h : p.found = some (l, a, c)) :
    p.lab.1.graph = { p.sec.graph with
      prev := l, parent := if isInternalLabel l then p.sec.graph.parent else l
      defs := assocSet l (p.sec.lines.length + 1) p.sec.graph.defs } ∧
    p.lab.2.isLabel = true ∧ p.lab.2.isAssignment = a ∧ p.lab.2.label = l := by
  unfold TParser.found at h
  unfold TParser.lab
  split at h
  · cases h
  · rename_i hh
    rw [if_neg hh]
    unfold TParser.handleLabelDefinition
    rw [h]
    refine ⟨?_, rfl, rfl, rfl⟩
    simp only [TParser.graph]
    cases isInternalLabel l <;> rfl

inductive EolGraph (L : Locale) (p p' : TParser) : Prop
  | same (h : (p.inBlock || isEmptyOrJustWhitespace p.st.text || (p.filter.directives && p.atProc)) = true) (e : p'.graph = p.graph)
  | skip (h : (p.inBlock || isEmptyOrJustWhitespace p.st.text || (p.filter.directives && p.atProc)) = false) (hs : p.seen.skipped = true)
      (e : p'.graph = p.sec.graph)
  | label (h : (p.inBlock || isEmptyOrJustWhitespace p.st.text || (p.filter.directives && p.atProc)) = false) (hs : p.seen.skipped = false)
      (l : Str) (a c : Bool) (hl : p.found = some (l, a, c)) (e : p'.graph = { p.sec.graph with
        prev := l, parent := if isInternalLabel l then p.sec.graph.parent else l
        defs := assocSet l (p.sec.lines.length + 1) p.sec.graph.defs
        addr := if a then [] else l
        usage := { p.sec.usage with aliased :=
          if a || p.sec.graph.addr.isEmpty then p.sec.usage.aliased else assocSet l p.sec.graph.addr p.sec.usage.aliased } })
  | line (h : (p.inBlock || isEmptyOrJustWhitespace p.st.text || (p.filter.directives && p.atProc)) = false) (hs : p.seen.skipped = false)
      (hl : p.found = none) (u : Usage) (hu : u = if p.decl then declUsage p.newLine.text p.sec.graph.prev p.sec.usage else p.sec.usage)
      (e : p'.graph = { p.sec.graph with
        addr := if hasOpcode p.newLine.text p.st.inNvccCode || (!p.handled && isDataDefn p.newLine.text) then [] else p.sec.graph.addr
        usage := { u with
          used := if hasOpcode p.newLine.text p.st.inNvccCode then codeRefs L p.newLine.text p.sec.graph.parent u.used else u.used
          dataUsed := if !p.handled && isDataDefn p.newLine.text then
            dataRefs L p.sec.st.currentSourceRef.insideProc p.newLine.text p.sec.graph.prev p.sec.graph.parent u.dataUsed else u.dataUsed } })

theorem eol_graph (L : Locale) (p : TParser) (hb : Basic p) : EolGraph L p (p.eol L) := by
  obtain ⟨ln1, ln2, ln3, ln4⟩ := lab_nv p
  obtain ⟨lsrc1, lsrc2, -⟩ := lab_src p
  have lref : p.lab.1.st.currentSourceRef = p.sec.st.currentSourceRef := congrArg (·.1) lsrc2
  have cond : (p.filter.commentOnly = true → p.st.hasStartedCommentBlock = false ∧ startCommentBlock p.st.text = false) →
      isEmptyOrJustWhitespace p.st.text = false → (p.filter.directives = true → p.atProc = false) →
      (p.inBlock || isEmptyOrJustWhitespace p.st.text || (p.filter.directives && p.atProc)) = false := by
    intro h1 h2 h3
    rw [inBlock_false h1, h2]
    cases hd : p.filter.directives with
    | false => rfl
    | true => rw [h3 hd]; rfl
  refine eol_elim L (P := fun q => EolGraph L p q) p hb ?_ ?_ ?_ ?_ ?_ ?_ ?_
  · intro h1 h2
    refine .same ?_ rfl
    have : p.inBlock = true := by
      unfold TParser.inBlock
      rw [h1]
      simpa using h2
    rw [this]; rfl
  · intro h1 h2
    refine .same (by rw [h2]; simp) ?_
    rcases maybeAddBlank_cases p.start (p.nextId + 1) with e | ⟨x, -, -, e⟩ <;> rw [e] <;> rfl
  · intro h1 h2 h3 h4
    refine .same (by rw [h3, h4]; simp) (pre_graph p)
  · intro h1 h2 h3 h4
    exact .skip (cond h1 h2 h3) (by show (p.filter.libraryFunctions || _) = true; rw [h4]; rfl) rfl
  · intro h1 h2 h3 h4 h5 h6
    refine .skip (cond h1 h2 h3) ?_ rfl
    show (p.filter.libraryFunctions || p.isComment) = true
    unfold TParser.isComment
    rw [h5]
    rcases h6 with ⟨g1, g2⟩ | ⟨g1, g2⟩ <;> rw [g1, g2] <;> simp
  · intro h1 h2 h3 h4 h5 h6 h7 h8 h9 h10 h11
    have hsk : p.seen.skipped = false := by
      show (p.filter.libraryFunctions || p.isComment) = false
      rw [h4, isComment_of h11]; rfl
    have hl : p.found = none := by
      cases hf : p.found with
      | none => rfl
      | some r =>
        obtain ⟨l, a, c⟩ := r
        rw [(lab_graph_some p hf).2.1] at h6
        cases h6
    obtain ⟨g1, g2, g3, -, -⟩ := lab_graph_none p hl
    rw [g3] at h5
    rw [ln3] at h7
    rw [ln4] at h8
    refine .line (cond h1 h2 h3) hsk hl _ rfl ?_
    have hd : p.decl = true := by
      unfold TParser.decl
      rw [h5, h7, h8, h9]; rfl
    have hdir : Directive p.newLine.text := by
      cases hh : p.handled with
      | true => exact ((handled_iff p).1 hh).2.directive
      | false => rw [hh] at h8; exact (isDirective_iff _).1 h8
    rw [directive_no_opcode hdir h9, h7, hd]
    obtain ⟨k1, k2⟩ := dir_graph p.lab.1 p.newLine.id p.newLine.text
    have hu : p.lab.1.usage = p.sec.usage := congrArg (·.usage) g1
    show (p.lab.1.extractUsedLabelsFromDirective p.newLine.id p.newLine.text).graph = _
    rw [k1, g1, hu]
    rfl
  · intro h1 h2 h3 h4 h5 q ln hq
    have hsk : p.seen.skipped = false := by
      show (p.filter.libraryFunctions || p.isComment) = false
      rw [h4, isComment_of h5]; rfl
    obtain ⟨d, hdl⟩ := dirLine_lab p
    have ht := lab_text p
    cases hl : p.found with
    | some r =>
      obtain ⟨l, a, c⟩ := r
      obtain ⟨g1, g2, g3, g4⟩ := lab_graph_some p hl
      have hq : q.graph = p.lab.1.graph ∧ ln = p.lab.2 := by
        rcases hq with ⟨-, rfl, rfl⟩ | ⟨-, k, -⟩ | ⟨-, k, -⟩ | ⟨-, -, rfl, rfl⟩
        · split <;> exact ⟨rfl, rfl⟩
        · rw [g2] at k; cases k
        · rw [g2] at k; cases k
        · exact ⟨rfl, rfl⟩
      obtain ⟨e1, rfl⟩ := hq
      have hu : q.usage = p.sec.usage := by
        have := congrArg (·.usage) (e1.trans g1)
        exact this
      refine .label (cond h1 h2 h3) hsk l a c hl ?_
      rw [finish_graph_label L q _ g2, e1, hu, g1, g3, g4]
    | none =>
      obtain ⟨g1, g2, g3, g4, g5⟩ := lab_graph_none p hl
      have hq : ln.text = p.newLine.text ∧ ln.isLabel = false ∧ ln.isAssignment = false ∧ ln.isData = p.lab.2.isData ∧
          q.st.currentSourceRef = p.sec.st.currentSourceRef ∧ q.st.inNvccCode = p.st.inNvccCode ∧
          q.graph = { p.sec.graph with usage := if p.decl then declUsage p.newLine.text p.sec.graph.prev p.sec.usage else p.sec.usage } := by
        rcases hq with ⟨k1, rfl, rfl⟩ | ⟨k1, -, k3, rfl, k4, k5, k6, rfl⟩ | ⟨k1, -, k3, rfl, k4, rfl⟩ | ⟨k1, k2, rfl, rfl⟩
        · rw [g3] at k1
          have hd : p.decl = false := by unfold TParser.decl; rw [k1]; rfl
          rw [hd]
          split <;> exact ⟨ht, g4, g5, rfl, lref, g2, g1⟩
        · rw [g3] at k1
          rw [ln3] at k3
          rw [ln4] at k4
          have hd : p.decl = true := by unfold TParser.decl; rw [k1, k3, k4, k5]; rfl
          rw [hd]
          obtain ⟨m1, m2⟩ := dir_graph p.lab.1 p.newLine.id p.newLine.text
          have hu : p.lab.1.usage = p.sec.usage := congrArg (·.usage) g1
          refine ⟨dirLine_text p, by rw [hdl]; exact g4, by rw [hdl]; exact g5, by rw [hdl], by rw [m2]; exact lref, by rw [m2]; exact g2, ?_⟩
          rw [m1, g1, hu]; rfl
        · rw [ln4] at k4
          have hd : p.decl = false := by
            unfold TParser.decl
            rcases k4 with k4 | k4 <;> rw [k4] <;> simp
          rw [hd]
          exact ⟨dirLine_text p, by rw [hdl]; exact g4, by rw [hdl]; exact g5, by rw [hdl], lref, g2, g1⟩
        · rcases k2 with k2 | k2
          · rw [g4] at k2; cases k2
          · rw [ln3] at k2
            have hd : p.decl = false := by unfold TParser.decl; rw [k2]; simp
            rw [hd]
            exact ⟨ht, g4, g5, rfl, lref, g2, g1⟩
      obtain ⟨e1, e2, e3, e4, e5, e6, e7⟩ := hq
      refine .line (cond h1 h2 h3) hsk hl _ rfl ?_
      have hu : q.usage = if p.decl then declUsage p.newLine.text p.sec.graph.prev p.sec.usage else p.sec.usage := by
        have := congrArg (·.usage) e7
        exact this
      rw [finish_graph_line L q ln e2 e3, e7, e1, e4, e5, e6, hu, ln3]

/-! ### Tables -/

theorem assocSet_keys_mem {β : Type} {k x : Str} {v : β} {m : List (Str × β)} : x ∈ (assocSet k v m).map (·.1) ↔ x = k ∨ x ∈ m.map (·.1) := by
  induction m with
  | nil => simp [assocSet]
  | cons e m ih =>
    obtain ⟨k', v'⟩ := e
    unfold assocSet
    by_cases h : k' = k
    · subst h; simp
    · rw [if_neg (by simpa using h), List.map_cons, List.mem_cons, ih, List.map_cons, List.mem_cons]
      constructor
      · rintro (h | h | h)
        · exact .inr (.inl h)
        · exact .inl h
        · exact .inr (.inr h)
      · rintro (h | h | h)
        · exact .inr (.inl h)
        · exact .inl h
        · exact .inr (.inr h)

theorem assocSet_keys_nodup {β : Type} {k : Str} {v : β} {m : List (Str × β)} (h : (m.map (·.1)).Nodup) :
    ((assocSet k v m).map (·.1)).Nodup := by
  induction m with
  | nil => simp [assocSet]
  | cons e m ih =>
    obtain ⟨k', v'⟩ := e
    rw [List.map_cons, List.nodup_cons] at h
    unfold assocSet
    by_cases hk : k' = k
    · subst hk; simpa using h
    · rw [if_neg (by simpa using hk), List.map_cons, List.nodup_cons, assocSet_keys_mem]
      exact ⟨by rintro (h' | h'); exact hk h'; exact h.1 h', ih h.2⟩

theorem mem_assocSet {β : Type} {k b : Str} {v a : β} {m : List (Str × β)} (h : (m.map (·.1)).Nodup) :
    (b, a) ∈ assocSet k v m ↔ b = k ∧ a = v ∨ b ≠ k ∧ (b, a) ∈ m := by
  induction m with
  | nil => simp [assocSet]
  | cons e m ih =>
    obtain ⟨k', v'⟩ := e
    rw [List.map_cons, List.nodup_cons] at h
    unfold assocSet
    by_cases hk : k' = k
    · subst hk
      rw [if_pos (by simp), List.mem_cons, List.mem_cons, Prod.mk.injEq, Prod.mk.injEq]
      constructor
      · rintro (h' | h')
        · exact .inl h'
        · refine .inr ⟨?_, .inr h'⟩
          rintro rfl
          exact h.1 (List.mem_map.2 ⟨_, h', rfl⟩)
      · rintro (h' | ⟨h1, h2 | h2⟩)
        · exact .inl h'
        · exact (h1 h2.1).elim
        · exact .inr h2
    · rw [if_neg (by simpa using hk), List.mem_cons, ih h.2, List.mem_cons, Prod.mk.injEq]
      constructor
      · rintro (⟨rfl, rfl⟩ | h' | ⟨h1, h2⟩)
        · exact .inr ⟨hk, .inl ⟨rfl, rfl⟩⟩
        · exact .inl h'
        · exact .inr ⟨h1, .inr h2⟩
      · rintro (h' | ⟨h1, h2 | h2⟩)
        · exact .inr (.inl h')
        · exact .inl h2
        · exact .inr (.inr ⟨h1, h2⟩)

theorem mem_refs (L : Locale) (text a : Str) : (∃ r ∈ getUsedLabelsInLine L text, r.name = a) ↔ a ∈ mentioned text := by
  rw [← usedLabels_names L, List.mem_map]

theorem foldl_code_iff (parent : Str) (refs : List AsmLabel) (m : List (Str × List Str)) (a b : Str) :
    Refers (refs.foldl (fun m r => if r.name ≠ parent then addRef r.name parent m else m) m) a b ↔
      Refers m a b ∨ ((∃ r ∈ refs, r.name = a) ∧ b = parent ∧ a ≠ b) := by
  induction refs generalizing m with
  | nil => simp
  | cons r refs ih =>
    rw [List.foldl_cons, ih]
    by_cases h : r.name = parent
    · rw [if_neg (by simpa using h)]
      constructor
      · rintro (h1 | ⟨⟨x, hx, h2⟩, h3⟩)
        · exact .inl h1
        · exact .inr ⟨⟨x, by simp [hx], h2⟩, h3⟩
      · rintro (h1 | ⟨⟨x, hx, h2⟩, h3, h4⟩)
        · exact .inl h1
        · rcases List.mem_cons.1 hx with rfl | hx
          · exact (h4 (h2.symm.trans (h.trans h3.symm))).elim
          · exact .inr ⟨⟨x, hx, h2⟩, h3, h4⟩
    · rw [if_pos h, refers_addRef]
      constructor
      · rintro ((h1 | ⟨rfl, rfl⟩) | ⟨⟨x, hx, h2⟩, h3⟩)
        · exact .inl h1
        · exact .inr ⟨⟨r, by simp, rfl⟩, rfl, h⟩
        · exact .inr ⟨⟨x, by simp [hx], h2⟩, h3⟩
      · rintro (h1 | ⟨⟨x, hx, h2⟩, h3, h4⟩)
        · exact .inl (.inl h1)
        · rcases List.mem_cons.1 hx with rfl | hx
          · exact .inl (.inr ⟨h2.symm, h3⟩)
          · exact .inr ⟨⟨x, hx, h2⟩, h3, h4⟩

theorem codeRefs_iff (L : Locale) (text parent : Str) (m : List (Str × List Str)) (a b : Str) :
    Refers (codeRefs L text parent m) a b ↔ Refers m a b ∨ (a ∈ mentioned text ∧ b = parent ∧ a ≠ b) := by
  unfold codeRefs
  rw [foldl_code_iff, mem_refs]

theorem foldl_data_iff (inside : Bool) (prev parent : Str) (refs : List AsmLabel) (m : List (Str × List Str)) (a b : Str) :
    Refers (refs.foldl (fun m r => if inside then addRef r.name parent (addRef r.name prev m) else addRef r.name prev m) m) a b ↔
      Refers m a b ∨ ((∃ r ∈ refs, r.name = a) ∧ (b = prev ∨ b = parent ∧ inside = true)) := by
  induction refs generalizing m with
  | nil => simp
  | cons r refs ih =>
    rw [List.foldl_cons, ih]
    have hstep : Refers (if inside = true then addRef r.name parent (addRef r.name prev m) else addRef r.name prev m) a b ↔
        Refers m a b ∨ r.name = a ∧ (b = prev ∨ b = parent ∧ inside = true) := by
      cases inside with
      | true =>
        rw [if_pos rfl, refers_addRef, refers_addRef]
        constructor
        · rintro ((h | ⟨rfl, rfl⟩) | ⟨rfl, rfl⟩)
          · exact .inl h
          · exact .inr ⟨rfl, .inl rfl⟩
          · exact .inr ⟨rfl, .inr ⟨rfl, rfl⟩⟩
        · rintro (h | ⟨rfl, rfl | ⟨rfl, -⟩⟩)
          · exact .inl (.inl h)
          · exact .inl (.inr ⟨rfl, rfl⟩)
          · exact .inr ⟨rfl, rfl⟩
      | false =>
        rw [if_neg (by simp), refers_addRef]
        constructor
        · rintro (h | ⟨rfl, rfl⟩)
          · exact .inl h
          · exact .inr ⟨rfl, .inl rfl⟩
        · rintro (h | ⟨rfl, rfl | ⟨rfl, h⟩⟩)
          · exact .inl h
          · exact .inr ⟨rfl, rfl⟩
          · exact absurd h (by simp)
    rw [hstep]
    constructor
    · rintro ((h1 | ⟨h1, h2⟩) | ⟨⟨x, hx, h2⟩, h3⟩)
      · exact .inl h1
      · exact .inr ⟨⟨r, by simp, h1⟩, h2⟩
      · exact .inr ⟨⟨x, by simp [hx], h2⟩, h3⟩
    · rintro (h1 | ⟨⟨x, hx, h2⟩, h3⟩)
      · exact .inl (.inl h1)
      · rcases List.mem_cons.1 hx with rfl | hx
        · exact .inl (.inr ⟨h2, h3⟩)
        · exact .inr ⟨⟨x, hx, h2⟩, h3⟩

theorem dataRefs_iff (L : Locale) (inside : Bool) (text prev parent : Str) (m : List (Str × List Str)) (a b : Str) :
    Refers (dataRefs L inside text prev parent m) a b ↔ Refers m a b ∨ (a ∈ mentioned text ∧ (b = prev ∨ b = parent ∧ inside = true)) := by
  unfold dataRefs
  rw [foldl_data_iff, mem_refs]

theorem declUsage_weak {text prev a : Str} {u : Usage} (h : DeclaresWeak text a) : declUsage text prev u = { u with used := addRef a prev u.used } := by
  unfold declUsage
  rw [(getWeak_iff text a).2 h]

theorem declUsage_global {text prev a : Str} {u : Usage} (h : DeclaresSymbol globalDirectives text a) :
    declUsage text prev u = { u with usercode := setInsert a u.usercode, used := addRef a prev u.used } := by
  unfold declUsage
  cases hw : getWeakDefinedLabel text with
  | some w => exact (weak_not_global ((getWeak_iff _ _).1 hw) h).elim
  | none => rw [(getGlobal_iff text a).2 h]

theorem declUsage_other {text prev : Str} {u : Usage} (h1 : ∀ a, ¬ DeclaresWeak text a) (h2 : ∀ a, ¬ DeclaresSymbol globalDirectives text a) :
    declUsage text prev u = u := by
  unfold declUsage
  cases hw : getWeakDefinedLabel text with
  | some w => exact (h1 _ ((getWeak_iff _ _).1 hw)).elim
  | none =>
    cases hg : getGlobalDefinedLabel text with
    | some g => exact (h2 _ ((getGlobal_iff _ _).1 hg)).elim
    | none => rfl

/-- What a directive declares, in terms of the symbols. -/
theorem declUsage_iff (text prev : Str) (u : Usage) :
    (∀ a b, Refers (declUsage text prev u).used a b ↔
      Refers u.used a b ∨ ((DeclaresSymbol globalDirectives text a ∨ DeclaresWeak text a) ∧ b = prev)) ∧
    (∀ a, a ∈ (declUsage text prev u).usercode ↔ a ∈ u.usercode ∨ DeclaresSymbol globalDirectives text a) ∧
    (declUsage text prev u).dataUsed = u.dataUsed ∧ (declUsage text prev u).weaklyUsed = u.weaklyUsed ∧
    (declUsage text prev u).aliased = u.aliased := by
  by_cases hw : ∃ a, DeclaresWeak text a
  · obtain ⟨w, hw⟩ := hw
    have hng : ∀ a, ¬ DeclaresSymbol globalDirectives text a := fun a h => weak_not_global hw h
    have hu : ∀ a, DeclaresWeak text a → a = w := fun a h => by
      have := (getWeak_iff text a).2 h
      rw [(getWeak_iff text w).2 hw] at this
      exact (Option.some.inj this).symm
    rw [declUsage_weak hw]
    refine ⟨fun a b => ?_, fun a => ?_, rfl, rfl, rfl⟩
    · rw [refers_addRef]
      constructor
      · rintro (h | ⟨rfl, rfl⟩)
        · exact .inl h
        · exact .inr ⟨.inr hw, rfl⟩
      · rintro (h | ⟨h | h, rfl⟩)
        · exact .inl h
        · exact (hng _ h).elim
        · exact .inr ⟨hu _ h, rfl⟩
    · exact ⟨.inl, fun h => h.elim id fun h => (hng _ h).elim⟩
  · have hw : ∀ a, ¬ DeclaresWeak text a := fun a h => hw ⟨a, h⟩
    by_cases hg : ∃ a, DeclaresSymbol globalDirectives text a
    · obtain ⟨g, hg⟩ := hg
      have hu : ∀ a, DeclaresSymbol globalDirectives text a → a = g := fun a h => by
        have := (getGlobal_iff text a).2 h
        rw [(getGlobal_iff text g).2 hg] at this
        exact (Option.some.inj this).symm
      rw [declUsage_global hg]
      refine ⟨fun a b => ?_, fun a => ?_, rfl, rfl, rfl⟩
      · rw [refers_addRef]
        constructor
        · rintro (h | ⟨rfl, rfl⟩)
          · exact .inl h
          · exact .inr ⟨.inl hg, rfl⟩
        · rintro (h | ⟨h | h, rfl⟩)
          · exact .inl h
          · exact .inr ⟨hu _ h, rfl⟩
          · exact (hw _ h).elim
      · rw [mem_setInsert]
        constructor
        · rintro (h | rfl)
          · exact .inl h
          · exact .inr hg
        · rintro (h | h)
          · exact .inl h
          · exact .inr (hu _ h)
    · have hg : ∀ a, ¬ DeclaresSymbol globalDirectives text a := fun a h => hg ⟨a, h⟩
      rw [declUsage_other hw hg]
      refine ⟨fun a b => ⟨.inl, fun h => h.elim id fun h => (h.1.elim (hg a) (hw a)).elim⟩, fun a => ⟨.inl, fun h => h.elim id fun h => (hg _ h).elim⟩, rfl, rfl, rfl⟩

/-! ### The lines in terms of the program -/

theorem seen_info (p : TParser) : p.seen.Info ↔ p.handled = true := (handled_iff p).symm

theorem found_none {p : TParser} (h : p.found = none) : ∀ l, ¬ p.seen.Defines l := by
  rintro l ⟨-, h2, h3⟩
  unfold TParser.found at h
  rw [if_neg (fun hh => h2 ((seen_info p).2 hh))] at h
  obtain ⟨a, c, e⟩ := (label_of_line _ _).2 h3
  rw [show getLabelFromLine p.newLine.text = _ from e] at h
  cases h

theorem found_some {p : TParser} {l : Str} {a c : Bool} (hs : p.seen.skipped = false) (h : p.found = some (l, a, c)) :
    p.seen.Defines l ∧ (a = true → Assigns p.seen.text l) ∧ (a = false → Places p.seen.text l) := by
  unfold TParser.found at h
  split at h
  · cases h
  · rename_i hh
    refine ⟨⟨hs, fun hi => hh ((seen_info p).1 hi), (label_of_line _ _).1 ⟨a, c, h⟩⟩, ?_, ?_⟩
    · rintro rfl; exact (getLabelFromLine_assigns _ _).1 ⟨c, h⟩
    · rintro rfl; exact (getLabelFromLine_places _ _).1 ⟨c, h⟩

theorem seen_instr {p : TParser} (hs : p.seen.skipped = false) (h : p.found = none) :
    p.seen.Instr ↔ hasOpcode p.newLine.text p.st.inNvccCode = true := by
  rw [hasOpcode_iff]
  exact ⟨fun h => h.2, fun h' => ⟨⟨hs, found_none h⟩, h'⟩⟩

theorem seen_data {p : TParser} (hs : p.seen.skipped = false) (h : p.found = none) :
    p.seen.Data ↔ (!p.handled && isDataDefn p.newLine.text) = true := by
  rw [Bool.and_eq_true, Bool.not_eq_true', isDataDefn_iff]
  constructor
  · rintro ⟨-, h1, h2⟩
    exact ⟨by rw [Bool.eq_false_iff]; exact fun hh => h1 ((seen_info p).2 hh), h2⟩
  · rintro ⟨h1, h2⟩
    exact ⟨⟨hs, found_none h⟩, fun hi => (by rw [(seen_info p).1 hi] at h1; cases h1), h2⟩

theorem seen_decl {p : TParser} (h : p.found = none) :
    p.decl = true ∧ p.handled = false ↔ p.handled = false ∧ p.st.inNvccDef = false ∧ PlainDirective p.newLine.text := by
  constructor
  · rintro ⟨h1, h2⟩
    refine ⟨h2, ?_⟩
    unfold TParser.decl at h1
    unfold TParser.found at h
    rw [h2] at h1 h
    simp only [Bool.not_false, Bool.true_and, Bool.false_or, Bool.and_eq_true, Bool.not_eq_true'] at h1
    refine ⟨h1.1.1.1, ?_⟩
    rw [if_neg (by simp)] at h
    rw [← plainDirective_iff]
    simp [h1.1.1.2, h1.1.2, h1.2, h]
  · rintro ⟨h2, h1, h3⟩
    refine ⟨?_, h2⟩
    rw [← plainDirective_iff] at h3
    simp only [Bool.and_eq_true, Bool.not_eq_true'] at h3
    unfold TParser.decl
    rw [h1, h2]
    simp [h3]

theorem seen_exports {p : TParser} (hs : p.seen.skipped = false) (h : p.found = none) (a : Str) :
    (p.seen.Exports a ↔ p.decl = true ∧ DeclaresSymbol globalDirectives p.newLine.text a) ∧
    (p.seen.Declares a ↔ p.decl = true ∧ (DeclaresSymbol globalDirectives p.newLine.text a ∨ DeclaresWeak p.newLine.text a)) := by
  have key : ∀ P : Prop, (P → p.handled = false) → ((p.decl = true ∧ P) ↔ (p.st.inNvccDef = false ∧ PlainDirective p.newLine.text ∧ P)) := by
    intro P hp
    constructor
    · rintro ⟨h1, h2⟩
      obtain ⟨-, h3, h4⟩ := (seen_decl h).1 ⟨h1, hp h2⟩
      exact ⟨h3, h4, h2⟩
    · rintro ⟨h1, h2, h3⟩
      exact ⟨((seen_decl h).2 ⟨hp h3, h1, h2⟩).1, h3⟩
  have hg : DeclaresSymbol globalDirectives p.newLine.text a → p.handled = false := fun hd => by
    rw [Bool.eq_false_iff]
    exact fun hh => ((handled_iff p).1 hh).2.not_global hd
  have hw : DeclaresWeak p.newLine.text a → p.handled = false := fun hd => by
    rw [Bool.eq_false_iff]
    exact fun hh => ((handled_iff p).1 hh).2.not_weak hd
  rw [key _ hg, key _ (fun h => h.elim hg hw)]
  have e : p.seen.Exports a ↔ p.st.inNvccDef = false ∧ PlainDirective p.newLine.text ∧ DeclaresSymbol globalDirectives p.newLine.text a :=
    ⟨fun h => h.2, fun h => ⟨hs, h⟩⟩
  refine ⟨e, ?_⟩
  unfold Seen.Declares
  rw [e]
  constructor
  · rintro (⟨h1, h2, h3⟩ | ⟨-, h1, h2, h3⟩)
    · exact ⟨h1, h2, .inl h3⟩
    · exact ⟨h1, h2, .inr h3⟩
  · rintro ⟨h1, h2, h3 | h3⟩
    · exact .inl ⟨h1, h2, h3⟩
    · exact .inr ⟨hs, h1, h2, h3⟩

theorem seen_label_no_directive {p : TParser} {x : Str × Bool × Bool} (h : p.found = some x) (a : Str) : ¬ p.seen.Exports a ∧ ¬ p.seen.Declares a := by
  have hp : ¬ PlainDirective p.newLine.text := by
    intro hp
    rw [← plainDirective_iff] at hp
    simp only [Bool.and_eq_true] at hp
    unfold TParser.found at h
    split at h
    · cases h
    · rw [h] at hp
      exact absurd hp.1.1.2 (by simp)
  refine ⟨fun he => hp he.2.2.1, ?_⟩
  rintro (he | he)
  · exact hp he.2.2.1
  · exact hp he.2.2.1

theorem codeUse_snoc {ts : List Seen} {t : Seen} {a b : Str} : CodeUse (ts ++ [t]) a b ↔
    CodeUse ts a b ∨ (t.Instr ∧ a ∈ mentioned t.text ∧ FunctionAt ts b ∧ a ≠ b ∨ t.Declares a ∧ LabelAt (ts ++ [t]) b) := somewhere_snoc

theorem dataUse_snoc {ts : List Seen} {t : Seen} {a b : Str} : DataUse (ts ++ [t]) a b ↔
    DataUse ts a b ∨ (t.Data ∧ a ∈ mentioned t.text ∧
      (LabelAt (ts ++ [t]) b ∨ FunctionAt ts b ∧ ∃ i n c, PositionAt (ts ++ [t]) (some (.indexed i n c)))) := somewhere_snoc

/-! ### The invariant -/

/-- The state of the labels after the lines `ts`. -/
structure GraphInv (ts : List Seen) (g : GView) : Prop where
  prev : LabelAt ts g.prev
  parent : FunctionAt ts g.parent
  addr : AddressAt ts g.addr
  code : ∀ a b, Refers g.usage.used a b ↔ CodeUse ts a b
  data : ∀ a b, Refers g.usage.dataUsed a b ↔ DataUse ts a b
  weak : g.usage.weaklyUsed = []
  user : ∀ a, a ∈ g.usage.usercode ↔ ∃ t ∈ ts, t.Exports a
  defs : ∀ a, a ∈ g.defs.map (·.1) ↔ ∃ t ∈ ts, t.Defines a
  keys : (g.usage.aliased.map (·.1)).Nodup
  alias : ∀ b a, (b, a) ∈ g.usage.aliased ↔ SameAddress ts b a

theorem graphInv_nil : GraphInv [] ⟨[], [], [], {}, []⟩ where
  prev := .start
  parent := .start
  addr := .start
  code a b := ⟨fun ⟨x, hx, _⟩ => by simp at hx, fun h => (somewhere_nil h).elim⟩
  data a b := ⟨fun ⟨x, hx, _⟩ => by simp at hx, fun h => (somewhere_nil h).elim⟩
  weak := rfl
  user a := by simp
  defs a := by simp
  keys := by simp
  alias b a := ⟨fun h => by simp at h, fun h => (sameAddress_nil h).elim⟩

theorem exists_snoc {ts : List Seen} {t : Seen} {P : Seen → Prop} : (∃ u ∈ ts ++ [t], P u) ↔ (∃ u ∈ ts, P u) ∨ P t := by
  constructor
  · rintro ⟨u, hu, h⟩
    rcases List.mem_append.1 hu with hu | hu
    · exact .inl ⟨u, hu, h⟩
    · rw [List.mem_singleton] at hu; subst hu; exact .inr h
  · rintro (⟨u, hu, h⟩ | h)
    · exact ⟨u, by simp [hu], h⟩
    · exact ⟨t, by simp, h⟩

theorem sec_label {ts : List Seen} {p : TParser} (hi : Inside p.st.currentSourceRef) (h : LabelAt ts p.graph.prev)
    (hd : ∀ l, ¬ p.seen.Defines l) : LabelAt (ts ++ [p.seen]) p.sec.graph.prev := by
  obtain ⟨-, h1, h2⟩ := sec_graph p hi
  by_cases hc : p.seen.Clears
  · rw [h1 hc]; exact .clear hd hc
  · rw [h2 hc]; exact .keep hd hc h

theorem sec_rest {p : TParser} (hi : Inside p.st.currentSourceRef) : p.sec.graph.parent = p.graph.parent ∧ p.sec.graph.addr = p.graph.addr ∧
    p.sec.graph.usage = p.graph.usage ∧ p.sec.graph.defs = p.graph.defs := by
  obtain ⟨-, h1, h2⟩ := sec_graph p hi
  by_cases hc : p.seen.Clears
  · rw [h1 hc]; exact ⟨rfl, rfl, rfl, rfl⟩
  · rw [h2 hc]; exact ⟨rfl, rfl, rfl, rfl⟩

theorem graphInv_skip {ts : List Seen} {p p' : TParser} (hi : Inside p.st.currentSourceRef) (h : GraphInv ts p.graph)
    (hs : p.seen.skipped = true) (e : p'.graph = p.sec.graph) : GraphInv (ts ++ [p.seen]) p'.graph := by
  have hs' : p.seen.skipped ≠ false := by rw [hs]; simp
  have hd : ∀ l, ¬ p.seen.Defines l := fun l hl => hs' hl.1
  have hn : ¬ p.seen.Instr := fun hl => hs' hl.1.1
  have hda : ¬ p.seen.Data := fun hl => hs' hl.1.1
  have he : ∀ a, ¬ p.seen.Exports a := fun a hl => hs' hl.1
  have hde : ∀ a, ¬ p.seen.Declares a := fun a hl => hl.elim (he a) fun hl => hs' hl.1
  obtain ⟨e1, e2, e3, e4⟩ := sec_rest hi
  rw [e]
  refine ⟨sec_label hi h.prev hd, ?_, ?_, ?_, ?_, ?_, ?_, ?_, ?_, ?_⟩
  · rw [e1]; exact .keep (fun l hl => (hd l hl).elim) h.parent
  · rw [e2]; exact .keep hd hn hda h.addr
  · intro a b
    rw [e3, h.code]
    rw [codeUse_snoc]
    exact ⟨.inl, fun h => h.elim id fun h => h.elim (fun h => (hn h.1).elim) fun h => (hde _ h.1).elim⟩
  · intro a b
    rw [e3, h.data]
    rw [dataUse_snoc]
    exact ⟨.inl, fun h => h.elim id fun h => (hda h.1).elim⟩
  · rw [e3]; exact h.weak
  · intro a
    rw [e3, h.user, exists_snoc]
    exact ⟨.inl, fun h => h.elim id fun h => (he _ h).elim⟩
  · intro a
    rw [e4, h.defs, exists_snoc]
    exact ⟨.inl, fun h => h.elim id fun h => (hd _ h).elim⟩
  · rw [e3]; exact h.keys
  · intro b a
    rw [e3, h.alias, sameAddress_snoc h.addr]
    exact ⟨fun h => .inr ⟨fun h' => (hd _ h').elim, h⟩, fun h => h.elim (fun h => (hd _ h.2.1).elim) (·.2)⟩

theorem graphInv_label {ts : List Seen} {p p' : TParser} (hi : Inside p.st.currentSourceRef) (h : GraphInv ts p.graph)
    (hs : p.seen.skipped = false) (l : Str) (as c : Bool) (hl : p.found = some (l, as, c)) (n : Nat) (e : p'.graph = { p.sec.graph with
        prev := l, parent := if isInternalLabel l then p.sec.graph.parent else l
        defs := assocSet l n p.sec.graph.defs
        addr := if as then [] else l
        usage := { p.sec.usage with aliased :=
          if as || p.sec.graph.addr.isEmpty then p.sec.usage.aliased else assocSet l p.sec.graph.addr p.sec.usage.aliased } }) :
    GraphInv (ts ++ [p.seen]) p'.graph := by
  obtain ⟨hd, ha1, ha2⟩ := found_some hs hl
  have hu : ∀ x, p.seen.Defines x → x = l := fun x hx => hx.unique hd
  have hn : ¬ p.seen.Instr := fun hx => hx.1.2 _ hd
  have hda : ¬ p.seen.Data := fun hx => hx.1.2 _ hd
  have he : ∀ a, ¬ p.seen.Exports a := fun a => (seen_label_no_directive hl a).1
  have hde : ∀ a, ¬ p.seen.Declares a := fun a => (seen_label_no_directive hl a).2
  obtain ⟨e1, e2, e3, e4⟩ := sec_rest hi
  have e3' : p.sec.usage = p.graph.usage := e3
  rw [e]
  refine ⟨.label hd, ?_, ?_, ?_, ?_, ?_, ?_, ?_, ?_, ?_⟩
  · show FunctionAt _ (if isInternalLabel l = true then p.sec.graph.parent else l)
    rw [e1]
    by_cases hint : isInternalLabel l = true
    · rw [if_pos hint]
      exact .keep (fun x hx => by rw [hu x hx]; exact (internal_iff l).1 hint) h.parent
    · rw [if_neg hint]
      exact .label hd fun hh => hint ((internal_iff l).2 hh)
  · cases as with
    | true => exact .assign hd (ha1 rfl)
    | false => exact .place hd (ha2 rfl)
  · intro a b
    show Refers p.sec.usage.used a b ↔ _
    rw [e3', h.code]
    rw [codeUse_snoc]
    exact ⟨.inl, fun h => h.elim id fun h => h.elim (fun h => (hn h.1).elim) fun h => (hde _ h.1).elim⟩
  · intro a b
    show Refers p.sec.usage.dataUsed a b ↔ _
    rw [e3', h.data]
    rw [dataUse_snoc]
    exact ⟨.inl, fun h => h.elim id fun h => (hda h.1).elim⟩
  · show p.sec.usage.weaklyUsed = []
    rw [e3']; exact h.weak
  · intro a
    show a ∈ p.sec.usage.usercode ↔ _
    rw [e3', h.user, exists_snoc]
    exact ⟨.inl, fun h => h.elim id fun h => (he _ h).elim⟩
  · intro a
    show a ∈ (assocSet l n p.sec.graph.defs).map (·.1) ↔ _
    rw [assocSet_keys_mem, e4, h.defs, exists_snoc, or_comm]
    exact or_congr Iff.rfl ⟨fun h => h ▸ hd, hu a⟩
  · show ((if as || p.sec.graph.addr.isEmpty then p.sec.usage.aliased else assocSet l p.sec.graph.addr p.sec.usage.aliased).map (·.1)).Nodup
    rw [e3']
    split
    · exact h.keys
    · exact assocSet_keys_nodup h.keys
  · intro b a
    show (b, a) ∈ (if as || p.sec.graph.addr.isEmpty then p.sec.usage.aliased else assocSet l p.sec.graph.addr p.sec.usage.aliased) ↔ _
    rw [sameAddress_snoc h.addr, e3', e2]
    have hax := h.alias
    have hne : ∀ b a, SameAddress ts b a → a ≠ [] := fun b a h => h.1
    have hkeys := h.keys
    generalize p.graph.usage.aliased = m at *
    generalize p.graph.addr = x at *
    by_cases hc : (as || x.isEmpty) = true
    · rw [if_pos hc, hax]
      have : p.seen.Defines b → Places p.seen.text b → x = [] := by
        intro g1 g2
        rw [Bool.or_eq_true] at hc
        rcases hc with hc | hc
        · rw [hu b g1] at g2
          exact (places_not_assigns g2 (ha1 hc)).elim
        · exact List.isEmpty_iff.1 hc
      constructor
      · exact fun g => .inr ⟨this, g⟩
      · rintro (⟨g0, g1, g2, rfl⟩ | ⟨-, g⟩)
        · exact (g0 (this g1 g2)).elim
        · exact g
    · rw [if_neg hc, mem_assocSet hkeys, hax]
      simp only [Bool.or_eq_true, not_or, List.isEmpty_iff, Bool.not_eq_true] at hc
      obtain ⟨hc1, hc2⟩ := hc
      constructor
      · rintro (⟨rfl, rfl⟩ | ⟨g1, g2⟩)
        · exact .inl ⟨hc2, hd, ha2 hc1, rfl⟩
        · exact .inr ⟨fun g => (g1 (hu _ g)).elim, g2⟩
      · rintro (⟨g0, g1, g2, rfl⟩ | ⟨g1, g2⟩)
        · exact .inl ⟨hu _ g1, rfl⟩
        · refine .inr ⟨?_, g2⟩
          rintro rfl
          exact hc2 (g1 hd (ha2 hc1))

theorem inside_position {ts : List Seen} {p : TParser} (hi : Inside p.st.currentSourceRef) (hst : SrcState ts p) :
    p.st.currentSourceRef.insideProc = true ↔ ∃ i n c, PositionAt ts (some (.indexed i n c)) := by
  obtain ⟨x, hx, hh⟩ := hst.pos
  rw [show (p.st.currentSourceRef.insideProc = true ↔ p.st.currentSourceRef.fileIdx ≠ 0) from hi]
  constructor
  · intro h0
    match x, hh with
    | none, hh => exact (h0 hh.1).elim
    | some (.indexed i n c), hh => exact ⟨i, n, c, hx⟩
    | some (.named f n), hh => exact (h0 hh.1).elim
  · rintro ⟨i, n, c, h⟩
    rw [hx.unique h] at hh
    rw [hh.2.1]
    exact hh.1

theorem graphInv_line (L : Locale) {ts : List Seen} {p p' : TParser} (hi : Inside p.st.currentSourceRef) (hst : SrcState ts p) (h : GraphInv ts p.graph)
    (hs : p.seen.skipped = false) (hl : p.found = none) (u : Usage)
    (hu : u = if p.decl then declUsage p.newLine.text p.sec.graph.prev p.sec.usage else p.sec.usage) (e : p'.graph = { p.sec.graph with
        addr := if hasOpcode p.newLine.text p.st.inNvccCode || (!p.handled && isDataDefn p.newLine.text) then [] else p.sec.graph.addr
        usage := { u with
          used := if hasOpcode p.newLine.text p.st.inNvccCode then codeRefs L p.newLine.text p.sec.graph.parent u.used else u.used
          dataUsed := if !p.handled && isDataDefn p.newLine.text then
            dataRefs L p.sec.st.currentSourceRef.insideProc p.newLine.text p.sec.graph.prev p.sec.graph.parent u.dataUsed else u.dataUsed } }) :
    GraphInv (ts ++ [p.seen]) p'.graph := by
  have hd := found_none hl
  have hin := seen_instr hs hl
  have hda := seen_data hs hl
  have hex := seen_exports hs hl
  have hprev := sec_label hi h.prev hd
  have hpos := inside_position (sec_graph p hi).1 (sec_state p hst).1
  obtain ⟨e1, e2, e3, e4⟩ := sec_rest hi
  have e3' : p.sec.usage = p.graph.usage := e3
  rw [e3'] at hu
  obtain ⟨u1, u2, u3, u4, u5⟩ : (∀ a b, Refers u.used a b ↔ Refers p.graph.usage.used a b ∨ (p.seen.Declares a ∧ b = p.sec.graph.prev)) ∧
      (∀ a, a ∈ u.usercode ↔ a ∈ p.graph.usage.usercode ∨ p.seen.Exports a) ∧ u.dataUsed = p.graph.usage.dataUsed ∧
      u.weaklyUsed = p.graph.usage.weaklyUsed ∧ u.aliased = p.graph.usage.aliased := by
    by_cases hdec : p.decl = true
    · rw [if_pos hdec] at hu
      rw [hu]
      obtain ⟨d1, d2, d3, d4, d5⟩ := declUsage_iff p.newLine.text p.sec.graph.prev p.graph.usage
      refine ⟨fun a b => ?_, fun a => ?_, d3, d4, d5⟩
      · rw [d1, (hex a).2]
        exact or_congr Iff.rfl (and_congr ⟨fun g => ⟨hdec, g⟩, (·.2)⟩ Iff.rfl)
      · rw [d2, (hex a).1]
        exact or_congr Iff.rfl ⟨fun g => ⟨hdec, g⟩, (·.2)⟩
    · rw [if_neg hdec] at hu
      rw [hu]
      exact ⟨fun a b => ⟨.inl, fun g => g.elim id fun g => (hdec ((hex a).2.1 g.1).1).elim⟩,
        fun a => ⟨.inl, fun g => g.elim id fun g => (hdec ((hex a).1.1 g).1).elim⟩, rfl, rfl, rfl⟩
  rw [e]
  have hlab : ∀ b, LabelAt (ts ++ [p.seen]) b ↔ b = p.sec.graph.prev := fun b => ⟨fun g => g.unique hprev, fun g => g ▸ hprev⟩
  have hfun : ∀ b, FunctionAt ts b ↔ b = p.sec.graph.parent := fun b => by
    rw [e1]; exact ⟨fun g => g.unique h.parent, fun g => g ▸ h.parent⟩
  refine ⟨hprev, ?_, ?_, ?_, ?_, ?_, ?_, ?_, ?_, ?_⟩
  · show FunctionAt _ p.sec.graph.parent
    rw [e1]; exact .keep (fun l hl => (hd l hl).elim) h.parent
  · show AddressAt _ (if (hasOpcode p.newLine.text p.st.inNvccCode || (!p.handled && isDataDefn p.newLine.text)) = true then [] else p.sec.graph.addr)
    rw [e2]
    have hor : (hasOpcode p.newLine.text p.st.inNvccCode || (!p.handled && isDataDefn p.newLine.text)) = true ↔ p.seen.Instr ∨ p.seen.Data := by
      rw [Bool.or_eq_true, ← hin, ← hda]
    split
    · rename_i g; exact .next (hor.1 g)
    · rename_i g; rw [hor] at g; exact .keep hd (fun g' => g (.inl g')) (fun g' => g (.inr g')) h.addr
  · intro a b
    show Refers (if hasOpcode p.newLine.text p.st.inNvccCode = true then codeRefs L p.newLine.text p.sec.graph.parent u.used else u.used) a b ↔ _
    rw [codeUse_snoc, ← h.code, hlab, hfun]
    by_cases ho : hasOpcode p.newLine.text p.st.inNvccCode = true
    · rw [if_pos ho, codeRefs_iff, u1]
      constructor
      · rintro ((g | g) | ⟨g1, g2, g3⟩)
        · exact .inl g
        · exact .inr (.inr g)
        · exact .inr (.inl ⟨hin.2 ho, g1, g2, g3⟩)
      · rintro (g | ⟨-, g1, g2, g3⟩ | g)
        · exact .inl (.inl g)
        · exact .inr ⟨g1, g2, g3⟩
        · exact .inl (.inr g)
    · rw [if_neg ho, u1]
      constructor
      · rintro (g | g)
        · exact .inl g
        · exact .inr (.inr g)
      · rintro (g | ⟨g, -⟩ | g)
        · exact .inl g
        · exact (ho (hin.1 g)).elim
        · exact .inr g
  · intro a b
    show Refers (if (!p.handled && isDataDefn p.newLine.text) = true then
      dataRefs L p.sec.st.currentSourceRef.insideProc p.newLine.text p.sec.graph.prev p.sec.graph.parent u.dataUsed else u.dataUsed) a b ↔ _
    rw [dataUse_snoc, ← h.data, hlab, hfun, ← hpos, u3]
    by_cases ho : (!p.handled && isDataDefn p.newLine.text) = true
    · rw [if_pos ho, dataRefs_iff]
      exact or_congr Iff.rfl ⟨fun g => ⟨hda.2 ho, g⟩, (·.2)⟩
    · rw [if_neg ho]
      exact ⟨.inl, fun g => g.elim id fun g => (ho (hda.1 g.1)).elim⟩
  · show u.weaklyUsed = []
    rw [u4]; exact h.weak
  · intro a
    show a ∈ u.usercode ↔ _
    rw [u2, h.user, exists_snoc]
  · intro a
    show a ∈ p.sec.graph.defs.map (·.1) ↔ _
    rw [e4, h.defs, exists_snoc]
    exact ⟨.inl, fun h => h.elim id fun h => (hd _ h).elim⟩
  · show (u.aliased.map (·.1)).Nodup
    rw [u5]; exact h.keys
  · intro b a
    show (b, a) ∈ u.aliased ↔ _
    rw [u5, h.alias, sameAddress_snoc h.addr]
    exact ⟨fun h => .inr ⟨fun h' => (hd _ h').elim, h⟩, fun h => h.elim (fun h => (hd _ h.2.1).elim) (·.2)⟩

end AsmParser
